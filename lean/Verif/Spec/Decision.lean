import Mathlib.Data.List.Sort
import Mathlib.Algebra.Order.Field.Basic

/-!
# Specification: tail fractions and sample quantiles

Textbook notions, written without reference to the model.
-/

namespace Pysatl.Spec

variable {K : Type} [Field K] [LinearOrder K]

/-- Fraction of the list at or below `s`. -/
def fracLe (L : List K) (s : K) : K := ((L.filter (fun x => x ≤ s)).length : K) / L.length

/-- Fraction of the list at or above `s`. -/
def fracGe (L : List K) (s : K) : K := ((L.filter (fun x => s ≤ x)).length : K) / L.length

/-- Fraction of the list strictly above `s`. -/
def fracGt (L : List K) (s : K) : K := ((L.filter (fun x => s < x)).length : K) / L.length

/-- `v` is the linearly interpolated `q`-quantile of the sample `L`, every element counted
as often as it occurs: with the sample in increasing order `s`, and
`q (|L| - 1) = k + t` for a whole number `k` and a fraction `0 ≤ t < 1`, it is the point at
fraction `t` of the way from `s[k]` to `s[k+1]`. -/
def IsSampleQuantile (L : List K) (q v : K) : Prop :=
  ∃ s : List K, s.Perm L ∧ s.Pairwise (· ≤ ·) ∧ ∃ (k : ℕ) (t a b : K), 0 ≤ t ∧ t < 1 ∧
    q * ((L.length : K) - 1) = k + t ∧ s[k]? = some a ∧ (s[k + 1]? = some b ∨ (t = 0 ∧ b = a)) ∧
    v = (1 - t) * a + t * b

end Pysatl.Spec
