import Mathlib.MeasureTheory.Measure.Real
import Mathlib.MeasureTheory.Constructions.BorelSpace.Real
import Mathlib.MeasureTheory.Measure.Prod

/-! # Life times that age: the alternatives of the criteria of exponentiality which count pairs and triples -/

namespace Pysatl.Spec

open MeasureTheory

/-- The probability of an observation beyond `x`. -/
noncomputable def tail (Q : Measure ℝ) (x : ℝ) : ℝ := Q.real (Set.Ioi x)

/-- New is better than used: what has lasted for the time `x` lasts for another time `y` with a smaller probability
than a new item lasts for the time `y`. -/
def NewBetter (Q : Measure ℝ) : Prop :=
  ∀ x y, 0 < x → 0 < y → 0 < tail Q x → 0 < tail Q y → tail Q (x + y) < tail Q x * tail Q y

/-- New is worse than used: what has lasted for the time `x` lasts for another time `y` with a larger probability
than a new item lasts for the time `y`. -/
def NewWorse (Q : Measure ℝ) : Prop :=
  ∀ x y, 0 < x → 0 < y → 0 < tail Q x → 0 < tail Q y → tail Q x * tail Q y < tail Q (x + y)

/-- The time between the first and the second of three failures. -/
noncomputable def firstGap (a b c : ℝ) : ℝ := max (min a b) (min (max a b) c) - min (min a b) c

/-- The probability that the time between the first and the second of three failures is shorter than another life time. -/
noncomputable def gapProb (Q : Measure ℝ) : ℝ :=
  (((Q.prod Q).prod Q).prod Q).real {q | firstGap q.1.1.1 q.1.1.2 q.1.2 < q.2}

end Pysatl.Spec
