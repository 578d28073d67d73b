import Verif.Model.Construct

/-!
# What a constructed criterion should report

The parameters of the distribution a criterion tests for, as documented by the constructors of
the abstract classes (`beta.py` 20-26, `exponent.py` 32-38, `gamma.py` 38-50, `log_normal.py`
20-30, `normal.py` 36-40, `student.py` 19-31, `uniform.py` 20-30, `weibull.py` 30-37), and the
values of these parameters for which there is such a distribution.
-/

namespace Pysatl.Spec

open Pysatl.Codes (Family Registered)
open Pysatl.Construct

/-- The parameters of the distribution of a family. -/
def distributionParameters : Family → List String
  | .beta => ["alpha", "beta"]
  | .exponential => ["lam"]
  | .gamma => ["alpha", "beta"]
  | .logNormal => ["s", "scale"]
  | .normal => ["mean", "var"]
  | .student => ["df", "loc", "scale"]
  | .uniform => ["a", "b"]
  | .weibull => ["a", "k"]

/-- Every object of the class states, whatever accepted arguments it was built from, a
hypothesis that names each parameter of the distribution given to the constructor with the given
value. -/
def ReportsHypothesis (c : Registered) : Prop :=
  ∀ kw o, construct c kw = .ok o →
    ∃ ps, hypothesis c.family o = .ok ps ∧
      ∀ p ∈ distributionParameters c.family, ∀ v, kw.lookup p = some v → ps.lookup p = some v

/-- There is a distribution of the family with these parameters: shapes, scales, rates, variances
and degrees of freedom are positive, the uniform interval is not empty. -/
def Admissible : Family → List ℝ → Prop
  | .beta, [α, β] => 0 < α ∧ 0 < β
  | .exponential, [lam] => 0 < lam
  | .gamma, [α, β] => 0 < α ∧ 0 < β
  | .logNormal, [s, scale] => 0 < s ∧ 0 < scale
  | .normal, [_, var] => 0 < var
  | .student, [df, _, scale] => 0 < df ∧ 0 < scale
  | .uniform, [a, b] => a < b
  | .weibull, [a, k] => 0 < a ∧ 0 < k
  | _, _ => False

/-- A class accepts exactly the parameters for which the distribution exists, and refuses the
others with a `ValueError`. -/
def AcceptsAdmissible (c : Registered) : Prop :=
  ∀ xs : List ℝ, xs.length = (distributionParameters c.family).length →
    (Admissible c.family xs →
      ∃ o, construct c ((distributionParameters c.family).zip (xs.map Val.num)) = .ok o) ∧
    (¬ Admissible c.family xs →
      construct c ((distributionParameters c.family).zip (xs.map Val.num)) = .error .valueError)

end Pysatl.Spec
