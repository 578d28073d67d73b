import Verif.Spec.Likelihood
import Mathlib.Analysis.SpecialFunctions.Gamma.Basic

/-! # Specification for C78: further densities, scale families and maximum likelihood estimates -/

namespace Pysatl.Spec

/-- Gamma, parameters shape and scale. -/
noncomputable def gammaPdf (θ : ℝ × ℝ) (x : ℝ) : ℝ :=
  if 0 < x then x ^ (θ.1 - 1) * Real.exp (-x / θ.2) / (Real.Gamma θ.1 * θ.2 ^ θ.1) else 0

/-- Beta, parameters the two shapes. -/
noncomputable def betaPdf (θ : ℝ × ℝ) (x : ℝ) : ℝ :=
  if 0 < x ∧ x < 1 then
    Real.Gamma (θ.1 + θ.2) / (Real.Gamma θ.1 * Real.Gamma θ.2) * x ^ (θ.1 - 1) * (1 - x) ^ (θ.2 - 1)
  else 0

/-- Cauchy, parameters location and scale. -/
noncomputable def cauchyPdf (θ : ℝ × ℝ) (x : ℝ) : ℝ := 1 / (Real.pi * θ.2 * (1 + ((x - θ.1) / θ.2) ^ 2))

/-- Chi-squared with `k` degrees of freedom. -/
noncomputable def chiSquaredPdf (k x : ℝ) : ℝ :=
  if 0 < x then x ^ (k / 2 - 1) * Real.exp (-x / 2) / (2 ^ (k / 2) * Real.Gamma (k / 2)) else 0

/-- Student, parameters degrees of freedom, location and scale. -/
noncomputable def studentPdf (θ : ℝ × ℝ × ℝ) (x : ℝ) : ℝ :=
  Real.Gamma ((θ.1 + 1) / 2) / (√(θ.1 * Real.pi) * Real.Gamma (θ.1 / 2) * θ.2.2) *
    (1 + ((x - θ.2.1) / θ.2.2) ^ 2 / θ.1) ^ (-((θ.1 + 1) / 2))

/-- Fisher with `θ.1` and `θ.2` degrees of freedom. -/
noncomputable def fisherPdf (θ : ℝ × ℝ) (x : ℝ) : ℝ :=
  if 0 < x then
    Real.Gamma ((θ.1 + θ.2) / 2) / (Real.Gamma (θ.1 / 2) * Real.Gamma (θ.2 / 2)) *
      θ.1 ^ (θ.1 / 2) * θ.2 ^ (θ.2 / 2) * x ^ (θ.1 / 2 - 1) / (θ.2 + θ.1 * x) ^ ((θ.1 + θ.2) / 2)
  else 0

/-- The law of `s` times a variable with density `f`. -/
noncomputable def scaled (f : ℝ → ℝ) (s x : ℝ) : ℝ := f (x / s) / s

/-- `θ` is a maximum likelihood estimate. -/
def IsMle {Θ : Type} (valid : Θ → Prop) (pdf : Θ → ℝ → ℝ) (d : List ℝ) (θ : Θ) : Prop :=
  valid θ ∧ ∀ θ', valid θ' → likelihood (pdf θ') d ≤ likelihood (pdf θ) d

end Pysatl.Spec
