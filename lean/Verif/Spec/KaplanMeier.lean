import Mathlib.Data.Real.Basic
import Mathlib.Algebra.BigOperators.Group.Finset.Basic

/-!
# The product-limit estimator of Kaplan and Meier

Independent of the model.  An observation is a time and an index; the index `1` marks the event.
-/

namespace Pysatl.Spec

/-- The number of events at time `s`. -/
noncomputable def eventsAt (obs : List (ℝ × ℤ)) (s : ℝ) : ℕ :=
  obs.countP fun p => decide (p.1 = s ∧ p.2 = 1)

/-- The number of observations not before time `s`. -/
noncomputable def atRisk (obs : List (ℝ × ℤ)) (s : ℝ) : ℕ := obs.countP fun p => decide (s ≤ p.1)

/-- The estimated probability of no event up to time `t`: the product over the observed times `s ≤ t`
of one minus the share of those at risk that have the event. -/
noncomputable def productLimit (obs : List (ℝ × ℤ)) (t : ℝ) : ℝ :=
  ∏ s ∈ (obs.map Prod.fst).toFinset.filter (· ≤ t), (1 - (eventsAt obs s : ℝ) / atRisk obs s)

/-- The mean of a symmetric function over the pairs of positions of a list. -/
noncomputable def pairMean (f : ℝ → ℝ → ℝ) (l : List ℝ) : ℝ :=
  (∑ i ∈ Finset.range l.length, ∑ j ∈ Finset.range i, f (l.getD j 0) (l.getD i 0)) /
    (l.length * ((l.length : ℝ) - 1) / 2)

end Pysatl.Spec
