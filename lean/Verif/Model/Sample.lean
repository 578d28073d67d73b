import Mathlib.Algebra.Order.Field.Rat
import Mathlib.Algebra.BigOperators.Group.List.Basic

/-!
# Model of `core/distributions/sample.py`

Floats are elements of a field; arrays are lists (one-dimensional).
-/

namespace Pysatl.Sample

variable {K : Type*} [Field K]

/-- `np.mean(a)`. -/
def npMean (a : List K) : K := a.sum / a.length

/-- `scipy.stats.moment(a, moment=mom, center=center)`: the average of the powers of the deviations
from `center`, which is the sample mean when it is `None` (scipy's documentation: "If `None`
(default) compute the center as the sample mean"). -/
def scipyMoment (a : List K) (mom : ℕ) (center : Option K) : K :=
  let c := center.getD (npMean a)
  npMean (a.map fun x => (x - c) ^ mom)

/-- `moment`, `core/distributions/sample.py` 5-38. -/
def moment (a : List K) (mom : ℕ := 1) (center : Option K := none) : K := scipyMoment a mom center

/-- `central_moment`, `core/distributions/sample.py` 41-48. -/
def centralMoment (a : List K) (mom : ℕ := 1) : K := scipyMoment a mom (some (npMean a))

end Pysatl.Sample
