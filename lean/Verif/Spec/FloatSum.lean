import Verif.Spec.Float64
import Mathlib.Data.List.Perm.Basic

/-!
# Specification: sums of floating point numbers in any order

Nothing here refers to the model.
-/

namespace Pysatl.Spec

/-- `s` is a value that adding up the list can have when every addition is rounded: the terms may
be taken in any order and with any grouping (one after the other, as Python loops do, or in blocks
and pairs, as numpy does). -/
inductive SumsTo (fl : ℝ → ℝ) : List ℝ → ℝ → Prop where
  | one (x : ℝ) : SumsTo fl [x] x
  | add {l₁ l₂ l : List ℝ} {s₁ s₂ : ℝ} : SumsTo fl l₁ s₁ → SumsTo fl l₂ s₂ → l.Perm (l₁ ++ l₂) →
      SumsTo fl l (fl (s₁ + s₂))

end Pysatl.Spec
