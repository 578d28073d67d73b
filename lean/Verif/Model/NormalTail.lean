import Verif.Model.Normal

/-!
# Model: the tails of the normality criteria

`/repo/src/pysatl_criterion/statistics/goodness_of_fit/normal.py`.
-/

namespace Pysatl.Normal

open Pysatl.Decision

/-- `alternative()` of the classes: `normal.py` 143, 276, 310, 358 (inherited by D'Agostino-Pearson,
420), 447, 492, 563, 634, 665, 697, 760, 821, 889, 957, 991, 1029, 1068, 1132, 1161, 1208, 1247, 1292,
1343, 1399, 1508, 1542, 1592, 1731, 1761, 1858, 1898, 2312, 2370; Kolmogorov-Smirnov: `common.py` 22-24; Lilliefors:
`common.py` 118, 121-123; Anderson-Darling: `common.py` 93; Cramer-von Mises:
`common.py` 132. -/
def NormStat.alternative : NormStat → AlternativeType
  | .ks t => t
  | .shapiroWilk | .filli | .looneyGulledge | .ryanJoiner _ _ | .shapiroFrancia => .left
  | .lilliefors | .hosking1 | .hosking2 | .hosking3 | .hosking4 | .bonettSeier | .dagostino
  | .spiegelhalter => .twoTailed
  | _ => .right

/-- The statistic object as the test procedures see it.  A `None` returned for a small sample cannot be
compared with numbers: `TypeError`. -/
noncomputable def NormStat.statistic (lib : NormLib) (s : NormStat) (code : String)
    (params : Option (List (String × ℝ))) : Statistic ℝ :=
  { code := code, params := params, distribution := "normal", alternative := s.alternative,
    execute := fun xs => do
      match ← s.value lib xs with
      | some v => return v
      | none => .error .typeError }

end Pysatl.Normal
