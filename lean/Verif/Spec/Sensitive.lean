import Verif.Model.Basic
import Mathlib.Data.Real.Basic

/-! # Specification: criteria that tell samples apart -/

namespace Pysatl.Spec

/-- Among the admissible samples of `n` observations two have different values. -/
def TellsApart (admissible : List ℝ → Prop) (f : List ℝ → Except PyErr ℝ) (n : ℕ) : Prop :=
  ∃ xs ys v w, (xs.length = n ∧ admissible xs) ∧ (ys.length = n ∧ admissible ys) ∧
    f xs = .ok v ∧ f ys = .ok w ∧ v ≠ w

end Pysatl.Spec
