import Mathlib.RingTheory.Polynomial.Hermite.Basic
import Mathlib.Algebra.Polynomial.AlgebraMap
import Mathlib.Data.Real.Sqrt

/-!
# Specification: statistics built from Hermite polynomials

Independent of the model.  Bontemps and Meddahi (2005), Cabana and Cabana (1994).
-/

namespace Pysatl.Spec

/-- The Hermite polynomial of degree `j` with unit norm under the standard normal law. -/
noncomputable def normHermite (j : ℕ) (x : ℝ) : ℝ :=
  Polynomial.aeval x (Polynomial.hermite j) / √(j.factorial : ℝ)

/-- The sample mean. -/
noncomputable def sampleMean (xs : List ℝ) : ℝ := xs.sum / xs.length

/-- The sample with mean zero and unit (unbiased) sample variance. -/
noncomputable def studentised (xs : List ℝ) : List ℝ :=
  xs.map fun x => (x - sampleMean xs) /
    √((xs.map fun y => (y - sampleMean xs) ^ 2).sum / ((xs.length : ℝ) - 1))

/-- The normalised sample moment of the Hermite polynomial of degree `j`. -/
noncomputable def hermiteMoment (z : List ℝ) (j : ℕ) : ℝ :=
  (z.map (normHermite j)).sum / √(z.length : ℝ)

/-- The process of the test against asymmetry with five terms. -/
noncomputable def cabanaS (Φ φ : ℝ → ℝ) (z : List ℝ) (v : ℝ) : ℝ :=
  Φ v * hermiteMoment z 3 -
    φ v * ∑ j ∈ Finset.Icc (1 : ℕ) 5, 1 / √(j : ℝ) * normHermite (j - 1) v * hermiteMoment z (j + 3)

/-- The process of the test against wrong kurtosis with five terms. -/
noncomputable def cabanaK (Φ φ : ℝ → ℝ) (z : List ℝ) (v : ℝ) : ℝ :=
  -φ v * hermiteMoment z 3 + (Φ v - v * φ v) * hermiteMoment z 4 -
    φ v * ∑ j ∈ Finset.Icc (2 : ℕ) 5,
      (√((j : ℝ) / ((j : ℝ) - 1)) * normHermite (j - 2) v + normHermite j v) * hermiteMoment z (j + 3)

end Pysatl.Spec
