import Mathlib.Data.Fintype.Card
import Mathlib.Data.Finset.Lattice.Fold
import Mathlib.Algebra.BigOperators.Group.Finset.Basic
import Mathlib.Algebra.Order.Field.Basic
import Mathlib.MeasureTheory.Measure.Typeclasses.Probability
import Mathlib.MeasureTheory.Integral.Lebesgue.Basic

/-!
# Specification: textbook multiple-testing corrections and error rates

Nothing here refers to the model.  A family of `n` p-values is a function `Fin n → K`.
-/

namespace Pysatl.Spec

section Formulas

variable {K : Type*} [Field K] [LinearOrder K] {n : ℕ}

/-- Number of p-values strictly smaller than `x`. -/
def countLt (p : Fin n → K) (x : K) : ℕ := (Finset.univ.filter (fun k => p k < x)).card

/-- Number of p-values at most `x`. -/
def countLe (p : Fin n → K) (x : K) : ℕ := (Finset.univ.filter (fun k => p k ≤ x)).card

/-- Number of p-values strictly larger than `x`. -/
def countGt (p : Fin n → K) (x : K) : ℕ := (Finset.univ.filter (fun k => x < p k)).card

theorem nonempty_le (p : Fin n → K) (i : Fin n) :
    (Finset.univ.filter (fun j => p j ≤ p i)).Nonempty := ⟨i, by simp⟩

theorem nonempty_ge (p : Fin n → K) (i : Fin n) :
    (Finset.univ.filter (fun j => p i ≤ p j)).Nonempty := ⟨i, by simp⟩

/-- Holm (1979), step-down: the largest, over the hypotheses `j` with `p j ≤ p i`, of
`min 1 ((n - #{k | p k < p j}) * p j)`. -/
def holm (p : Fin n → K) (i : Fin n) : K :=
  (Finset.univ.filter (fun j => p j ≤ p i)).sup' (nonempty_le p i)
    (fun j => min 1 (((n : K) - (countLt p (p j) : K)) * p j))

/-- Hochberg (1988), step-up: the smallest, over the hypotheses `j` with `p i ≤ p j`, of
`min 1 ((#{k | p j < p k} + 1) * p j)`. -/
def hochberg (p : Fin n → K) (i : Fin n) : K :=
  (Finset.univ.filter (fun j => p i ≤ p j)).inf' (nonempty_ge p i)
    (fun j => min 1 (((countGt p (p j) : K) + 1) * p j))

/-- Holm-Sidak, step-down: the largest, over the hypotheses `j` with `p j ≤ p i`, of
`1 - (1 - p j) ^ (n - #{k | p k < p j})`. -/
def holmSidak (p : Fin n → K) (i : Fin n) : K :=
  (Finset.univ.filter (fun j => p j ≤ p i)).sup' (nonempty_le p i)
    (fun j => 1 - (1 - p j) ^ (n - countLt p (p j)))

/-- The harmonic number `1 + 1/2 + ... + 1/n`. -/
def harmonicNumber (n : ℕ) : K := ∑ i ∈ Finset.range n, 1 / ((i : K) + 1)

/-- Benjamini-Yekutieli (2001) with factor `c`: the smallest, over the hypotheses `j`
with `p i ≤ p j`, of `min 1 (n * c * p j / #{k | p k ≤ p j})`. -/
def stepUpFdr (c : K) (p : Fin n → K) (i : Fin n) : K :=
  (Finset.univ.filter (fun j => p i ≤ p j)).inf' (nonempty_ge p i)
    (fun j => min 1 ((n : K) * c * p j / (countLe p (p j) : K)))

end Formulas

section ErrorRates

open MeasureTheory

variable {n : ℕ} {ε : Type*}

/-- A testing procedure: from a list of p-values and a threshold to the list of
decisions and the list of adjusted p-values, or an error. -/
abbrev TestFn (ε : Type*) := List ℝ → ℝ → Except ε (List Bool × List ℝ)

/-- Procedure `T` at threshold `α` returns, and rejects hypothesis `i`. -/
def Rejects (T : TestFn ε) (p : Fin n → ℝ) (α : ℝ) (i : Fin n) : Prop :=
  ∃ rejected adjusted, T (List.ofFn p) α = .ok (rejected, adjusted) ∧ rejected[(i : ℕ)]? = some true

variable {Ω : Type*} [MeasurableSpace Ω]

/-- The p-value `P i` is valid under the null: at most `t` of the probability is at or
below `t`. -/
def SuperUniform (μ : Measure Ω) (X : Ω → ℝ) : Prop :=
  ∀ t : ℝ, 0 ≤ t → μ {ω | X ω ≤ t} ≤ ENNReal.ofReal t

/-- Family-wise error rate: the probability of rejecting at least one of the true nulls. -/
noncomputable def fwer (μ : Measure Ω) (T : TestFn ε) (P : Ω → Fin n → ℝ) (nulls : Finset (Fin n))
    (α : ℝ) : ENNReal :=
  μ {ω | ∃ i ∈ nulls, Rejects T (P ω) α i}

open Classical in
/-- False discovery proportion: rejected true nulls over all rejections (0 if none). -/
noncomputable def fdp (T : TestFn ε) (p : Fin n → ℝ) (nulls : Finset (Fin n)) (α : ℝ) : ℝ :=
  ((nulls.filter (fun i => Rejects T p α i)).card : ℝ) /
    (max 1 (Finset.univ.filter (fun i => Rejects T p α i)).card : ℕ)

/-- False discovery rate: the expectation of the false discovery proportion. -/
noncomputable def fdr (μ : Measure Ω) (T : TestFn ε) (P : Ω → Fin n → ℝ) (nulls : Finset (Fin n))
    (α : ℝ) : ENNReal :=
  ∫⁻ ω, ENNReal.ofReal (fdp T (P ω) nulls α) ∂μ

end ErrorRates

end Pysatl.Spec
