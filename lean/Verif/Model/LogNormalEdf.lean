import Verif.Model.LogNormal

/-!
# Model of the log-normality statistics of a completely specified hypothesis

`/repo/src/pysatl_criterion/statistics/goodness_of_fit/log_normal.py`, 65-150.
-/

namespace Pysatl.LogNormal

open Pysatl.Decision Pysatl.Edf Pysatl.Normal

/-- The two classes of `log_normal.py` that compare the sample with the hypothesised distribution function: 65-111 and
114-150. -/
inductive SimpleStat
  | ks (t : AlternativeType)
  | cvm

/-- `alternative()`: `common.py`, 25 and 132. -/
def SimpleStat.alternative : SimpleStat → AlternativeType
  | .ks t => t
  | .cvm => .right

/-- `execute_statistic`: 109-111 and 148-150. -/
noncomputable def SimpleStat.value (lib : NormLib) (s scale : ℝ) : SimpleStat → List ℝ → Except PyErr ℝ
  | .ks t, xs => ksLogNormal lib t s scale xs
  | .cvm, xs => .ok (cvmLogNormal lib s scale xs)

/-- The criterion as the test procedures see it; the hypothesis is that of line 36. -/
noncomputable def SimpleStat.statistic (lib : NormLib) (s scale : ℝ) (code : String) (st : SimpleStat) : Statistic ℝ :=
  { code := code, params := some [("s", s), ("scale", scale)], distribution := "log_normal",
    alternative := st.alternative, execute := st.value lib s scale }

end Pysatl.LogNormal
