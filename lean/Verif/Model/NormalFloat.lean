import Verif.Model.NormalDomain

/-!
# Model of two normality statistics with the rounding of every operation

`/repo/src/pysatl_criterion/statistics/goodness_of_fit/normal.py`, D'Agostino and Bontemps-Meddahi 1,
which compute the variance as the mean of the squares less the square of the mean.  The statements
of `Verif/Model/NormalDomain.lean` again, with every arithmetic operation followed by a rounding
function `fl`.  Powers and roots are taken to be correctly rounded as well.  Sums are the loops of
the code, one term after the other (`sum` of numpy scalars adds them plainly).  Integers are exact.
-/

namespace Pysatl.Normal.Rounded

open Pysatl.Graph Pysatl.Normal

variable (fl : ℝ → ℝ)

/-- `acc = 0.0; for x in l: acc += x`, and `sum(l)`. -/
noncomputable def seqSum (l : List ℝ) : ℝ := l.foldl (fun acc x => fl (acc + x)) 0

/-- The rounded quotient; see `pdiv`. -/
noncomputable def rdiv (a b : ℝ) : Except PyErr ℝ := (pdiv a b).map fl

/-- The rounded root; see `psqrt`. -/
noncomputable def rsqrt (a : ℝ) : Except PyErr ℝ := (psqrt a).map fl

/-- `mean_x`: 1185-1187, 1749. -/
noncomputable def rmean (xs : List ℝ) : ℝ := fl (seqSum fl xs / xs.length)

/-- `sum(x_i**2) / n - mean_x**2`: 1189-1191, 1750. -/
noncomputable def onePassVar (xs : List ℝ) : ℝ :=
  fl (fl (seqSum fl (xs.map fun x => fl (x ^ 2)) / xs.length) - fl (rmean fl xs ^ 2))

/-- `DagostinoNormalityGofStatistic.execute_statistic`, 1745-1755, inside `if n > 3`.
`i - 0.5 * (n + 1)` is exact. -/
noncomputable def dagostinoBody (xs : List ℝ) : Except PyErr ℝ := do
  let n : ℝ := xs.length
  let x := sort xs
  let v := onePassVar fl x
  let t := seqSum fl (x.mapIdx fun i x => fl (((i : ℝ) + 1 - 0.5 * (n + 1)) * x))
  let s ← rsqrt fl v
  let d ← rdiv fl t (fl (n ^ 2 * s))
  return fl (fl (fl (√n) * fl (d - fl 0.28209479)) / fl 0.02998598)

/-- `DagostinoNormalityGofStatistic.execute_statistic`, 1745-1755: `None` for `n ≤ 3`. -/
noncomputable def dagostino (xs : List ℝ) : Except PyErr (Option ℝ) :=
  guarded xs (dagostinoBody fl xs)

/-- `BontempsMeddahi1NormalityGofStatistic.execute_statistic`, 1175-1202, inside `if n > 3`. -/
noncomputable def bontempsMeddahi1Body (xs : List ℝ) : Except PyErr ℝ := do
  let n : ℝ := xs.length
  let sd ← rsqrt fl (fl (fl (n * onePassVar fl xs) / (n - 1)))
  let z ← xs.mapM fun x => rdiv fl (fl (x - rmean fl xs)) sd
  let r6 := fl √6
  let t3 := seqSum fl (z.map fun z => fl (fl (fl (z ^ 3) - fl (3 * z)) / r6))
  let t4 := seqSum fl (z.map fun z =>
    fl (fl (fl (fl (z ^ 4) - fl (6 * fl (z ^ 2))) + 3) / fl (2 * r6)))
  return fl (fl (fl (t3 ^ 2) + fl (t4 ^ 2)) / n)

/-- `BontempsMeddahi1NormalityGofStatistic.execute_statistic`, 1175-1202: `None` for `n ≤ 3`. -/
noncomputable def bontempsMeddahi1 (xs : List ℝ) : Except PyErr (Option ℝ) :=
  guarded xs (bontempsMeddahi1Body fl xs)

end Pysatl.Normal.Rounded
