import Mathlib.Analysis.SpecialFunctions.Log.Basic
import Mathlib.Analysis.SpecialFunctions.Pow.Real
import Mathlib.Analysis.Real.Pi.Bounds

/-!
# Specification for C71, C78, C79: densities and likelihood

Textbook densities and probability mass functions, and the likelihood of a sample.
-/

namespace Pysatl.Spec

/-- The likelihood of a sample: the product of the densities. -/
noncomputable def likelihood {α : Type} (pdf : α → ℝ) (d : List α) : ℝ := (d.map pdf).prod

/-- The likelihoods a family assigns to a sample; `θ` ranges over the valid parameters. -/
def likelihoods {Θ α : Type} (valid : Θ → Prop) (pdf : Θ → α → ℝ) (d : List α) : Set ℝ :=
  {L | ∃ θ, valid θ ∧ L = likelihood (pdf θ) d}

/-- Uniform on `[a,b]`, parameters `(a,b)`. -/
noncomputable def uniformPdf (θ : ℝ × ℝ) (x : ℝ) : ℝ :=
  if θ.1 ≤ x ∧ x ≤ θ.2 then 1 / (θ.2 - θ.1) else 0

/-- Normal, parameters mean and variance. -/
noncomputable def normalPdf (θ : ℝ × ℝ) (x : ℝ) : ℝ :=
  1 / √(2 * Real.pi * θ.2) * Real.exp (-((x - θ.1) ^ 2) / (2 * θ.2))

/-- Log-normal, parameters mean and variance of the logarithm. -/
noncomputable def lognormalPdf (θ : ℝ × ℝ) (x : ℝ) : ℝ :=
  if 0 < x then 1 / (x * √(2 * Real.pi * θ.2)) * Real.exp (-((Real.log x - θ.1) ^ 2) / (2 * θ.2))
  else 0

/-- Exponential with rate `lam`. -/
noncomputable def exponentialPdf (lam x : ℝ) : ℝ := if 0 ≤ x then lam * Real.exp (-lam * x) else 0

/-- Weibull, parameters shape and scale. -/
noncomputable def weibullPdf (θ : ℝ × ℝ) (x : ℝ) : ℝ :=
  if 0 < x then θ.1 / θ.2 * (x / θ.2) ^ (θ.1 - 1) * Real.exp (-((x / θ.2) ^ θ.1)) else 0

/-- Rayleigh with scale `s`. -/
noncomputable def rayleighPdf (s x : ℝ) : ℝ :=
  if 0 < x then x / s ^ 2 * Real.exp (-(x ^ 2) / (2 * s ^ 2)) else 0

/-- Wigner semicircle of radius `R`. -/
noncomputable def wignerPdf (R x : ℝ) : ℝ :=
  if x ^ 2 ≤ R ^ 2 then 2 / (Real.pi * R ^ 2) * √(R ^ 2 - x ^ 2) else 0

/-- Pareto, parameters minimum and exponent. -/
noncomputable def paretoPdf (θ : ℝ × ℝ) (x : ℝ) : ℝ :=
  if θ.1 ≤ x then θ.2 * θ.1 ^ θ.2 / x ^ (θ.2 + 1) else 0

/-- Laplace, parameters location and scale. -/
noncomputable def laplacePdf (θ : ℝ × ℝ) (x : ℝ) : ℝ :=
  1 / (2 * θ.2) * Real.exp (-|x - θ.1| / θ.2)

/-- Uniform on the integers from `a` to `b`. -/
noncomputable def discreteUniformPmf (θ : ℤ × ℤ) (x : ℤ) : ℝ :=
  if θ.1 ≤ x ∧ x ≤ θ.2 then 1 / ((θ.2 - θ.1 + 1 : ℤ) : ℝ) else 0

/-- Bernoulli with success probability `p`. -/
noncomputable def bernoulliPmf (p : ℝ) (x : ℤ) : ℝ :=
  if x = 1 then p else if x = 0 then 1 - p else 0

/-- Binomial with `n` trials. -/
noncomputable def binomialPmf (n : ℕ) (p : ℝ) (x : ℤ) : ℝ :=
  if 0 ≤ x ∧ x ≤ n then n.choose x.toNat * p ^ x.toNat * (1 - p) ^ (n - x.toNat) else 0

/-- Poisson with mean `lam`. -/
noncomputable def poissonPmf (lam : ℝ) (x : ℤ) : ℝ :=
  if 0 ≤ x then Real.exp (-lam) * lam ^ x.toNat / x.toNat.factorial else 0

/-- Geometric on `1, 2, …` with success probability `p`. -/
noncomputable def geometricPmf (p : ℝ) (x : ℤ) : ℝ :=
  if 1 ≤ x then (1 - p) ^ (x.toNat - 1) * p else 0

end Pysatl.Spec
