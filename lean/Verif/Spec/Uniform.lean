import Mathlib.Probability.Distributions.Uniform
import Mathlib.Probability.Independence.Integration
import Verif.Model.Basic

/-!
# Specification: samples from a uniform distribution and expectations

Independent of the model.
-/

namespace Pysatl.Spec

open MeasureTheory ProbabilityTheory

variable {Ω : Type} [MeasurableSpace Ω]

/-- `X 0, …, X (n - 1)` are independent and uniformly distributed on `[a, b]`. -/
structure UniformSample (P : Measure Ω) (a b : ℝ) {n : ℕ} (X : Fin n → Ω → ℝ) : Prop where
  indep : iIndepFun X P
  law : ∀ i, pdf.IsUniform (X i) (Set.Icc a b) P volume

/-- The sample observed in the outcome `ω`. -/
def observed {n : ℕ} (X : Fin n → Ω → ℝ) (ω : Ω) : List ℝ := List.ofFn fun i => X i ω

/-- `F` is almost surely a number, and this number has expectation `m`. -/
def HasExpectation (P : Measure Ω) (F : Ω → Except PyErr ℝ) (m : ℝ) : Prop :=
  ∃ S : Ω → ℝ, (∀ᵐ ω ∂P, F ω = .ok (S ω)) ∧ Integrable S P ∧ ∫ ω, S ω ∂P = m

end Pysatl.Spec
