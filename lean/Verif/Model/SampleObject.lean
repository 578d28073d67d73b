import Verif.Model.Normal

/-!
# The caller's sample as an object

`Hosking1NormalityGofStatistic` to `Hosking4NormalityGofStatistic`,
`/repo/src/pysatl_criterion/statistics/goodness_of_fit/normal.py` 711-744, 778-815, 838-871, 906-939, as
computations whose world is the object the caller passed.  A slice of a list is a new list, a slice of a numpy
array is a view of the same numbers, so that sorting the slice sorts the caller's array.

The other classes of `normal.py` that sort in place (`phiz`, `z`, `x_tmp` of 1314-1323) do so on arrays they have
made themselves.
-/

namespace Pysatl.Normal

open Pysatl.Decision Pysatl.Graph Pysatl.Exponent

/-- What a local name refers to: the numbers of the caller's object, or numbers of its own. -/
inductive Buffer where
  | caller
  | own (v : List ℝ)

/-- `x[:n]` with `n = len(x)`, 842, 910. -/
def sliceAll : Sample ℝ → Buffer
  | .list v => .own v
  | .ndarray _ => .caller

/-- `x[:n].copy()`, 782, and the loop 714-718, which fills a new list. -/
def copyAll (rvs : Sample ℝ) : Buffer := .own rvs.values

/-- The same object with other numbers. -/
def Sample.setValues (v : List ℝ) : Sample ℝ → Sample ℝ
  | .list _ => .list v
  | .ndarray _ => .ndarray v

/-- `x_tmp.sort()`, 783, 843, 911, and `x_tmp = np.sort(x_tmp)` (717) on numbers of its own. -/
noncomputable def Buffer.sortInPlace : Buffer → Py (Sample ℝ) Buffer
  | .own v => return .own (Graph.sort v)
  | .caller => do
    let rvs ← get
    set (Sample.setValues (Graph.sort rvs.values) rvs)
    return .caller

/-- The numbers a name refers to. -/
def Buffer.read : Buffer → Py (Sample ℝ) (List ℝ)
  | .own v => return v
  | .caller => do
    let rvs ← get
    return rvs.values

/-- `l21, l31, l41` from the sorted numbers, 718-724, 847-853, 915-921. -/
noncomputable def trimmedMomentOf (t r : ℕ) (sorted : List ℝ) : ℝ :=
  (∑ i ∈ Finset.Ico 2 sorted.length, at_ sorted (i - 1) * pstarmod t r sorted.length i) /
    (r * (sorted.length.choose (r + 2 * t) : ℝ))

/-- `execute_statistic` of the trimmed statistics, given how `x_tmp` is made. -/
noncomputable def hoskingTrimmedPy (make : Sample ℝ → Buffer) (t : ℕ) (short : Option ℝ) :
    Py (Sample ℝ) (Option ℝ) := do
  let rvs ← get
  if 3 < rvs.values.length then
    let tmp ← (make rvs).sortInPlace
    let x ← tmp.read
    return some (hoskingStat t x.length (trimmedMomentOf t 2 x) (trimmedMomentOf t 3 x) (trimmedMomentOf t 4 x))
  else return short

/-- `Hosking2NormalityGofStatistic.execute_statistic`, 711-744: a copy; `0` for short samples. -/
noncomputable def hosking2Py : Py (Sample ℝ) (Option ℝ) := hoskingTrimmedPy copyAll 1 (some 0)

/-- `Hosking3NormalityGofStatistic.stat12`, 838-871: a slice; `None` for short samples. -/
noncomputable def hosking3Py : Py (Sample ℝ) (Option ℝ) := hoskingTrimmedPy sliceAll 2 none

/-- `Hosking4NormalityGofStatistic.stat13`, 906-939: a slice; `None` for short samples. -/
noncomputable def hosking4Py : Py (Sample ℝ) (Option ℝ) := hoskingTrimmedPy sliceAll 3 none

end Pysatl.Normal
