import Verif.Model.Basic
import Verif.Model.Codes
import Mathlib.Data.Real.Basic

/-!
# Construction of criterion objects and the hypothesis they report

`__init__` and `hypothesis()` of the classes of
`src/pysatl_criterion/statistics/goodness_of_fit/*.py`, and what the two resolvers of
`hypothesis_testing/limit_distribution/base.py` do with the hypothesis.

An object is its `__dict__`.  Arguments are passed by keyword (positional arguments are the
keywords of the signature in order).  Values are real numbers, `None` and strings (members of
`AlternativeType` are represented by their value); `nan` is not modelled.
-/

namespace Pysatl.Construct

open Pysatl.Codes (Family Registered)

/-- The Python values constructors receive. -/
inductive Val where
  | none
  | num (x : ℝ)
  | text (s : String)

/-- `__dict__` of an object, the latest assignment first. -/
abbrev Obj := List (String × Val)

/-- The keyword arguments of a call. -/
abbrev Args := List (String × Val)

/-- `self.name = v`. -/
def setattr (o : Obj) (name : String) (v : Val) : Obj := (name, v) :: o

/-- `self.name`: `AttributeError` when it was never assigned.  None of the attributes read by
`hypothesis()` is a class attribute. -/
def getattr (o : Obj) (name : String) : Except PyErr Val :=
  match o.lookup name with
  | some v => .ok v
  | .none => .error .attributeError

/-- The value a parameter with a default takes in a call. -/
def arg (kw : Args) (name : String) (default : Val) : Val := (kw.lookup name).getD default

/-- A call with a keyword the signature does not have is a `TypeError`. -/
def signature (names : List String) (kw : Args) : Except PyErr Unit :=
  if kw.all (fun p => names.contains p.1) then .ok () else .error .typeError

open Classical in
/-- `if a <= b: raise ValueError(...)`; comparing anything but two numbers or two strings is a
`TypeError`. -/
noncomputable def rejectLe (a b : Val) : Except PyErr Unit :=
  match a, b with
  | .num x, .num y => if x ≤ y then .error .valueError else .ok ()
  | .text s, .text t => if s ≤ t then .error .valueError else .ok ()
  | _, _ => .error .typeError

open Classical in
/-- `if a < b: raise ValueError(...)`. -/
noncomputable def rejectLt (a b : Val) : Except PyErr Unit :=
  match a, b with
  | .num x, .num y => if x < y then .error .valueError else .ok ()
  | .text s, .text t => if s < t then .error .valueError else .ok ()
  | _, _ => .error .typeError

/-! ### Constructors of the abstract classes -/

/-- `AbstractBetaGofStatistic.__init__`, `beta.py` 28-34. -/
noncomputable def initBeta (o : Obj) (alpha beta : Val) : Except PyErr Obj := do
  rejectLe alpha (.num 0)
  rejectLe beta (.num 0)
  pure (setattr (setattr o "alpha" alpha) "beta" beta)

/-- `AbstractExponentialityGofStatistic.__init__`, `exponent.py` 40-41. -/
def initExponential (o : Obj) (lam : Val) : Except PyErr Obj := pure (setattr o "lam" lam)

/-- `AbstractGammaGofStatistic.__init__`, `gamma.py` 43-56. -/
noncomputable def initGamma (o : Obj) (alpha beta : Val) : Except PyErr Obj := do
  rejectLe alpha (.num 0)
  rejectLe beta (.num 0)
  pure (setattr (setattr o "alpha" alpha) "beta" beta)

/-- `AbstractLogNormalGofStatistic.__init__`, `log_normal.py` 25-32. -/
noncomputable def initLogNormal (o : Obj) (s scale : Val) : Except PyErr Obj := do
  rejectLe s (.num 0)
  rejectLe scale (.num 0)
  pure (setattr (setattr o "s" s) "scale" scale)

/-- `AbstractNormalityGofStatistic.__init__`, `normal.py` 38-40. -/
def initNormal (o : Obj) (mean var : Val) : Except PyErr Obj :=
  pure (setattr (setattr o "mean" mean) "var" var)

/-- `AbstractStudentGofStatistic.__init__`, `student.py` 24-31. -/
noncomputable def initStudent (o : Obj) (df loc scale : Val) : Except PyErr Obj := do
  rejectLe df (.num 0)
  rejectLe scale (.num 0)
  pure (setattr (setattr (setattr o "df" df) "loc" loc) "scale" scale)

/-- `AbstractUniformGofStatistic.__init__`, `uniform.py` 25-29. -/
noncomputable def initUniform (o : Obj) (a b : Val) : Except PyErr Obj := do
  rejectLe b a
  pure (setattr (setattr o "a" a) "b" b)

/-- `AbstractWeibullGofStatistic.__init__`, `weibull.py` 35-37. -/
def initWeibull (o : Obj) (a k : Val) : Except PyErr Obj := pure (setattr (setattr o "a" a) "k" k)

/-- `KSStatistic.__init__`, `common.py` 17-21. -/
def initKS (o : Obj) (alternativeType mode : Val) : Except PyErr Obj :=
  pure (setattr (setattr o "alternative_type" alternativeType) "mode"
    (match mode with
      | .text "auto" => .text "exact"
      | m => m))

/-- The default `AlternativeType.TWO_TAILED` of the Kolmogorov-Smirnov classes. -/
def twoTailed : Val := .text "two_tailed"

/-- `AbstractBinnedGammaGofStatistic.__init__`, `gamma.py` 561-566; `lambda_value` is a class
attribute, so that `getattr` finds the value assigned before or 1. -/
noncomputable def initBinnedGamma (o : Obj) (bins alpha beta : Val) : Except PyErr Obj := do
  rejectLt bins (.num 2)
  let o ← initGamma (setattr o "bins" bins) alpha beta
  pure (setattr o "lambda_value" ((o.lookup "lambda_value").getD (.num 1)))

/-- `str.upper` and the membership test of `ZhangTestsUniformGofStatistic.__init__`,
`uniform.py` 545-549. -/
def initZhangUniform (o : Obj) (testType : Val) : Except PyErr Obj :=
  match testType with
  | .text t =>
    if ["A", "C", "K"].contains t.toUpper then pure (setattr o "test_type" (.text t.toUpper))
    else .error .valueError
  | _ => .error .attributeError

/-! ### Constructors of the concrete classes -/

/-- `beta.py`: the Kolmogorov-Smirnov class 77-85, the chi-squared class 270-273, the mode class
736-741; the others inherit. -/
noncomputable def constructBeta (cls : String) (kw : Args) : Except PyErr Obj :=
  if cls = "KolmogorovSmirnovBetaGofStatistic" then do
    signature ["alpha", "beta", "alternative_type", "mode"] kw
    let o ← initBeta [] (arg kw "alpha" (.num 1)) (arg kw "beta" (.num 1))
    initKS o (arg kw "alternative_type" twoTailed) (arg kw "mode" (.text "auto"))
  else if cls = "Chi2PearsonBetaGofStatistic" then do
    signature ["alpha", "beta", "lambda_"] kw
    let o ← initBeta [] (arg kw "alpha" (.num 1)) (arg kw "beta" (.num 1))
    pure (setattr o "lambda_" (arg kw "lambda_" (.num 1)))
  else if cls = "ModeBetaGofStatistic" then do
    signature ["alpha", "beta"] kw
    rejectLe (arg kw "alpha" (.num 2)) (.num 1)
    rejectLe (arg kw "beta" (.num 2)) (.num 1)
    initBeta [] (arg kw "alpha" (.num 2)) (arg kw "beta" (.num 2))
  else do
    signature ["alpha", "beta"] kw
    initBeta [] (arg kw "alpha" (.num 1)) (arg kw "beta" (.num 1))

/-- `exponent.py`: the Kolmogorov-Smirnov class 123-125; the others inherit. -/
def constructExponential (cls : String) (kw : Args) : Except PyErr Obj :=
  if cls = "KolmogorovSmirnovExponentialityGofStatistic" then do
    signature ["alternative_type", "lam"] kw
    let o ← initExponential [] (arg kw "lam" (.num 1))
    initKS o (arg kw "alternative_type" twoTailed) (.text "auto")
  else do
    signature ["lam"] kw
    initExponential [] (arg kw "lam" (.num 1))

/-- `gamma.py`: the Kolmogorov-Smirnov class 92-100, the binned classes 561-566 and 691-699; the
others inherit. -/
noncomputable def constructGamma (cls : String) (kw : Args) : Except PyErr Obj :=
  if cls = "KolmogorovSmirnovGammaGofStatistic" then do
    signature ["alternative_type", "mode", "alpha", "beta"] kw
    let o ← initGamma [] (arg kw "alpha" (.num 1)) (arg kw "beta" (.num 1))
    initKS o (arg kw "alternative_type" twoTailed) (arg kw "mode" (.text "auto"))
  else if cls = "Chi2PearsonGammaGofStatistic" ∨ cls = "LikelihoodRatioGammaGofStatistic" then do
    signature ["bins", "alpha", "beta"] kw
    initBinnedGamma [] (arg kw "bins" (.num 8)) (arg kw "alpha" (.num 1)) (arg kw "beta" (.num 1))
  else if cls = "CressieReadGammaGofStatistic" then do
    signature ["power", "bins", "alpha", "beta"] kw
    initBinnedGamma (setattr [] "lambda_value" (arg kw "power" (.num (2 / 3))))
      (arg kw "bins" (.num 8)) (arg kw "alpha" (.num 1)) (arg kw "beta" (.num 1))
  else do
    signature ["alpha", "beta"] kw
    initGamma [] (arg kw "alpha" (.num 1)) (arg kw "beta" (.num 1))

/-- `log_normal.py`: the Kolmogorov-Smirnov class 70-78; the others, also the generated ones
(485-528), inherit. -/
noncomputable def constructLogNormal (cls : String) (kw : Args) : Except PyErr Obj :=
  if cls = "KolmogorovSmirnovLogNormalGofStatistic" then do
    signature ["alternative_type", "mode", "s", "scale"] kw
    let o ← initLogNormal [] (arg kw "s" (.num 1)) (arg kw "scale" (.num 1))
    initKS o (arg kw "alternative_type" twoTailed) (arg kw "mode" (.text "auto"))
  else do
    signature ["s", "scale"] kw
    initLogNormal [] (arg kw "s" (.num 1)) (arg kw "scale" (.num 1))

/-- `normal.py`: the Kolmogorov-Smirnov class 64-75 and the Ryan-Joiner class 556-559, whose
`super(AbstractNormalityGofStatistic).__init__()` initialises an unbound `super` object and not
the criterion; the others inherit. -/
def constructNormal (cls : String) (kw : Args) : Except PyErr Obj :=
  if cls = "KolmogorovSmirnovNormalityGofStatistic" then do
    signature ["alternative_type", "mode", "mean", "var"] kw
    let o ← initNormal [] (.num 0) (.num 1)
    let o ← initKS o (arg kw "alternative_type" twoTailed) (arg kw "mode" (.text "auto"))
    pure (setattr (setattr o "mean" (arg kw "mean" (.num 0))) "var" (arg kw "var" (.num 1)))
  else if cls = "RyanJoinerNormalityGofStatistic" then do
    signature ["weighted", "cte_alpha"] kw
    pure (setattr (setattr [] "weighted" (arg kw "weighted" (.num 0))) "cte_alpha"
      (arg kw "cte_alpha" (.text "3/8")))
  else do
    signature ["mean", "var"] kw
    initNormal [] (arg kw "mean" (.num 0)) (arg kw "var" (.num 1))

/-- `student.py`: the Kolmogorov-Smirnov class 74-82, the Lilliefors class 422-423, the
chi-squared class 471-479; the others inherit. -/
noncomputable def constructStudent (cls : String) (kw : Args) : Except PyErr Obj :=
  if cls = "KolmogorovSmirnovStudentGofStatistic" then do
    signature ["df", "loc", "scale", "alternative_type"] kw
    let o ← initStudent [] (arg kw "df" (.num 1)) (arg kw "loc" (.num 0)) (arg kw "scale" (.num 1))
    initKS o (arg kw "alternative_type" twoTailed) (.text "auto")
  else if cls = "LillieforsStudentGofStatistic" then do
    signature ["df"] kw
    initStudent [] (arg kw "df" (.num 1)) (.num 0) (.num 1)
  else if cls = "ChiSquareStudentGofStatistic" then do
    signature ["df", "loc", "scale", "n_bins"] kw
    let o ← initStudent [] (arg kw "df" (.num 1)) (arg kw "loc" (.num 0)) (arg kw "scale" (.num 1))
    pure (setattr o "n_bins" (arg kw "n_bins" (.num 10)))
  else do
    signature ["df", "loc", "scale"] kw
    initStudent [] (arg kw "df" (.num 1)) (arg kw "loc" (.num 0)) (arg kw "scale" (.num 1))

/-- `uniform.py`: the Kolmogorov-Smirnov class 76-80, the chi-squared class 247-251, the
Bickel-Rosenblatt class 479-481, the Zhang class 545-549, the Neyman class 806-808; the
constructors 310-311, 365-366, 612-613, 686-687 only call the inherited one; the others
inherit. -/
noncomputable def constructUniform (cls : String) (kw : Args) : Except PyErr Obj :=
  if cls = "KolmogorovSmirnovUniformGofStatistic" then do
    signature ["a", "b", "alternative_type", "mode"] kw
    let o ← initUniform [] (arg kw "a" (.num 0)) (arg kw "b" (.num 1))
    initKS o (arg kw "alternative_type" twoTailed) (arg kw "mode" (.text "auto"))
  else if cls = "Chi2PearsonUniformGofStatistic" then do
    signature ["a", "b", "lambda_", "bins"] kw
    let o ← initUniform [] (arg kw "a" (.num 0)) (arg kw "b" (.num 1))
    pure (setattr (setattr o "lambda_" (arg kw "lambda_" (.num 1))) "bins"
      (arg kw "bins" (.text "sturges")))
  else if cls = "BickelRosenblattUniformGofStatistic" then do
    signature ["a", "b", "bandwidth"] kw
    let o ← initUniform [] (arg kw "a" (.num 0)) (arg kw "b" (.num 1))
    pure (setattr o "bandwidth" (arg kw "bandwidth" (.text "auto")))
  else if cls = "ZhangTestsUniformGofStatistic" then do
    signature ["a", "b", "test_type"] kw
    let o ← initUniform [] (arg kw "a" (.num 0)) (arg kw "b" (.num 1))
    initZhangUniform o (arg kw "test_type" (.text "A"))
  else if cls = "NeymanSmoothTestUniformGofStatistic" then do
    signature ["a", "b", "k"] kw
    let o ← initUniform [] (arg kw "a" (.num 0)) (arg kw "b" (.num 1))
    pure (setattr o "k" (arg kw "k" (.num 4)))
  else do
    signature ["a", "b"] kw
    initUniform [] (arg kw "a" (.num 0)) (arg kw "b" (.num 1))

/-- `weibull.py`: the Kolmogorov-Smirnov class 274-281; the others inherit. -/
def constructWeibull (cls : String) (kw : Args) : Except PyErr Obj :=
  if cls = "KolmogorovSmirnovWeibullGofStatistic" then do
    signature ["alternative_type", "mode", "a", "k"] kw
    let o ← initWeibull [] .none (.num 1)
    let o ← initKS o (arg kw "alternative_type" twoTailed) (arg kw "mode" (.text "auto"))
    pure (setattr (setattr o "a" (arg kw "a" (.num 1))) "k" (arg kw "k" (.num 5)))
  else do
    signature ["a", "k"] kw
    initWeibull [] (arg kw "a" (.num 1)) (arg kw "k" (.num 1))

/-- `Class(**kw)`. -/
noncomputable def construct (c : Registered) (kw : Args) : Except PyErr Obj :=
  match c.family with
  | .beta => constructBeta c.cls kw
  | .exponential => constructExponential c.cls kw
  | .gamma => constructGamma c.cls kw
  | .logNormal => constructLogNormal c.cls kw
  | .normal => constructNormal c.cls kw
  | .student => constructStudent c.cls kw
  | .uniform => constructUniform c.cls kw
  | .weibull => constructWeibull c.cls kw

/-! ### The hypothesis of an object -/

/-- The attributes `hypothesis()` of the abstract class of a family reads, which are also the
keys of the dictionary it returns: `beta.py` 37-38, `exponent.py` 44-45, `gamma.py` 59-60,
`log_normal.py` 35-36, `normal.py` 43-44, `student.py` 34-35, `uniform.py` 32-33, `weibull.py`
40-41.  No concrete class overrides it. -/
def reported : Family → List String
  | .beta => ["alpha", "beta"]
  | .exponential => ["lam"]
  | .gamma => ["alpha", "beta"]
  | .logNormal => ["s", "scale"]
  | .normal => ["mean", "var"]
  | .student => ["df"]
  | .uniform => ["a", "b"]
  | .weibull => ["a", "k"]

/-- `hypothesis().params`: the dictionary literal of the reported attributes. -/
def hypothesis (f : Family) (o : Obj) : Except PyErr (List (String × Val)) :=
  (reported f).mapM fun p => do
    let v ← getattr o p
    pure (p, v)

/-- `MonteCarloLimitDistributionResolver.resolve`, `limit_distribution/base.py` 69-80, given
what becomes of the simulation once the parameters of the hypothesis are known (the rest of the
method). -/
def monteCarloResolve (c : Registered) (o : Obj) (sampleSize : ℤ)
    (simulate : List (String × Val) → Except PyErr (List ℝ)) : Except PyErr (List ℝ) := do
  if sampleSize ≤ 0 then .error .valueError
  let ps ← hypothesis c.family o
  simulate ps

/-- `StorageLimitDistributionResolver.resolve`, `limit_distribution/base.py` 108-121, given what
the storage answers for a code, the parameters of the hypothesis and a sample size. -/
def storageResolve (c : Registered) (o : Obj) (sampleSize : ℤ)
    (getData : String → List Val → ℤ → Except PyErr (Option (List ℝ))) :
    Except PyErr (Option (List ℝ)) := do
  let ps ← hypothesis c.family o
  getData c.code (ps.map (·.2)) sampleSize

end Pysatl.Construct
