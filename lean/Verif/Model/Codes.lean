/-!
# Criteria and their codes

`short_code()` and `code()` of every concrete class of
`src/pysatl_criterion/statistics/goodness_of_fit/*.py`.
-/

namespace Pysatl.Codes

/-- The families of criteria, one per file. -/
inductive Family where
  | beta | exponential | gamma | logNormal | normal | student | uniform | weibull
  deriving DecidableEq, Repr

/-- `AbstractGoodnessOfFitStatistic.code()`, `statistic.py` 77-84. -/
def gofCode : String := "GOODNESS_OF_FIT"

/-- `code()` of the abstract class of a family: `beta.py` 60-66, `exponent.py` 49-55, `gamma.py`,
`log_normal.py`, `normal.py` 53-59, `student.py`, `uniform.py`, `weibull.py`. -/
def Family.code : Family → String
  | .beta => "BETA_" ++ gofCode
  | .exponential => "EXPONENTIALITY_" ++ gofCode
  | .gamma => "GAMMA_" ++ gofCode
  | .logNormal => "LOGNORMAL_" ++ gofCode
  | .normal => "NORMALITY_" ++ gofCode
  | .student => "STUDENT_" ++ gofCode
  | .uniform => "UNIFORM_" ++ gofCode
  | .weibull => "WEIBULL_" ++ gofCode

/-- What `code()` puts between the short code and the end: the code of the family; `GRAPH_` and
the code of the family (`AbstractGraph*.code()`, `exponent.py` 1309-1317, `gamma.py`, `normal.py`);
or only the code of all goodness-of-fit statistics (`CramerVonMiseNormalityGofStatistic`,
`normal.py` 213-218, which calls `super(AbstractNormalityGofStatistic, ...)`). -/
inductive Kind where
  | plain | graph | bare
  deriving DecidableEq, Repr

/-- A concrete class: family, class name, short code, form of the code. -/
structure Criterion where
  family : Family
  cls : String
  short : String
  kind : Kind
  deriving DecidableEq, Repr

/-- `code()` of a class written in the source: `f"{short_code}_{base_code}"`. -/
def Criterion.sourceCode (c : Criterion) : String :=
  c.short ++ "_" ++ match c.kind with
    | .plain => c.family.code
    | .graph => "GRAPH_" ++ c.family.code
    | .bare => gofCode

/-- The concrete classes of `beta.py`, lines 69-724: class and short code. -/
def betaCriteria : List Criterion := [
  ⟨.beta, "KolmogorovSmirnovBetaGofStatistic", "KS", .plain⟩,
  ⟨.beta, "AndersonDarlingBetaGofStatistic", "AD", .plain⟩,
  ⟨.beta, "CrammerVonMisesBetaGofStatistic", "CVM", .plain⟩,
  ⟨.beta, "LillieforsTestBetaGofStatistic", "LILLIE", .plain⟩,
  ⟨.beta, "Chi2PearsonBetaGofStatistic", "CHI2_PEARSON", .plain⟩,
  ⟨.beta, "WatsonBetaGofStatistic", "W", .plain⟩,
  ⟨.beta, "KuiperBetaGofStatistic", "KUIPER", .plain⟩,
  ⟨.beta, "MomentBasedBetaGofStatistic", "MB", .plain⟩,
  ⟨.beta, "SkewnessKurtosisBetaGofStatistic", "SK", .plain⟩,
  ⟨.beta, "RatioBetaGofStatistic", "RT", .plain⟩,
  ⟨.beta, "EntropyBetaGofStatistic", "ENT", .plain⟩,
  ⟨.beta, "ModeBetaGofStatistic", "MODE", .plain⟩]

/-- The concrete classes of `exponent.py`, lines 68-1444: class and short code. -/
def exponentialCriteria : List Criterion := [
  ⟨.exponential, "EppsPulleyExponentialityGofStatistic", "EP", .plain⟩,
  ⟨.exponential, "KolmogorovSmirnovExponentialityGofStatistic", "KS", .plain⟩,
  ⟨.exponential, "AhsanullahExponentialityGofStatistic", "AHS", .plain⟩,
  ⟨.exponential, "AtkinsonExponentialityGofStatistic", "ATK", .plain⟩,
  ⟨.exponential, "CoxOakesExponentialityGofStatistic", "CO", .plain⟩,
  ⟨.exponential, "CramerVonMisesExponentialityGofStatistic", "CVM", .plain⟩,
  ⟨.exponential, "DeshpandeExponentialityGofStatistic", "DSP", .plain⟩,
  ⟨.exponential, "EpsteinExponentialityGofStatistic", "EPS", .plain⟩,
  ⟨.exponential, "FroziniExponentialityGofStatistic", "FZ", .plain⟩,
  ⟨.exponential, "GiniExponentialityGofStatistic", "GINI", .plain⟩,
  ⟨.exponential, "GnedenkoExponentialityGofStatistic", "GD", .plain⟩,
  ⟨.exponential, "HarrisExponentialityGofStatistic", "HM", .plain⟩,
  ⟨.exponential, "HegazyGreen1ExponentialityGofStatistic", "HG1", .plain⟩,
  ⟨.exponential, "HollanderProshanExponentialityGofStatistic", "HP", .plain⟩,
  ⟨.exponential, "KimberMichaelExponentialityGofStatistic", "KM", .plain⟩,
  ⟨.exponential, "KocharExponentialityGofStatistic", "KC", .plain⟩,
  ⟨.exponential, "LorenzExponentialityGofStatistic", "LZ", .plain⟩,
  ⟨.exponential, "MoranExponentialityGofStatistic", "MN", .plain⟩,
  ⟨.exponential, "PietraExponentialityGofStatistic", "PT", .plain⟩,
  ⟨.exponential, "ShapiroWilkExponentialityGofStatistic", "SW", .plain⟩,
  ⟨.exponential, "RossbergExponentialityGofStatistic", "RS", .plain⟩,
  ⟨.exponential, "WeExponentialityGofStatistic", "WE", .plain⟩,
  ⟨.exponential, "WongWongExponentialityGofStatistic", "WW", .plain⟩,
  ⟨.exponential, "HegazyGreen2ExponentialityGofStatistic", "HG2", .plain⟩,
  ⟨.exponential, "GraphEdgesNumberExponentialityGofStatistic", "EDGESNUMBER", .graph⟩,
  ⟨.exponential, "GraphMaxDegreeExponentialityGofStatistic", "MAXDEGREE", .graph⟩,
  ⟨.exponential, "GraphAverageDegreeExponentialityGofStatistic", "AVGDEGREE", .graph⟩,
  ⟨.exponential, "GraphConnectedComponentsExponentialityGofStatistic", "CONNECTEDCOMPONENTS", .graph⟩,
  ⟨.exponential, "GraphCliqueNumberExponentialityGofStatistic", "CLIQUENUMBER", .graph⟩,
  ⟨.exponential, "GraphIndependenceNumberExponentialityGofStatistic", "INDEPENDENCENUMBER", .graph⟩]

/-- The concrete classes of `gamma.py`, lines 83-965: class and short code. -/
def gammaCriteria : List Criterion := [
  ⟨.gamma, "KolmogorovSmirnovGammaGofStatistic", "KS", .plain⟩,
  ⟨.gamma, "LillieforsGammaGofStatistic", "LILLIE", .plain⟩,
  ⟨.gamma, "AndersonDarlingGammaGofStatistic", "AD", .plain⟩,
  ⟨.gamma, "CramerVonMisesGammaGofStatistic", "CVM", .plain⟩,
  ⟨.gamma, "WatsonGammaGofStatistic", "WAT", .plain⟩,
  ⟨.gamma, "KuiperGammaGofStatistic", "KUI", .plain⟩,
  ⟨.gamma, "GreenwoodGammaGofStatistic", "GRW", .plain⟩,
  ⟨.gamma, "MoranGammaGofStatistic", "MOR", .plain⟩,
  ⟨.gamma, "MinToshiyukiGammaGofStatistic", "MT", .plain⟩,
  ⟨.gamma, "Chi2PearsonGammaGofStatistic", "CHI2_PEARSON", .plain⟩,
  ⟨.gamma, "LikelihoodRatioGammaGofStatistic", "G_TEST", .plain⟩,
  ⟨.gamma, "CressieReadGammaGofStatistic", "CRESSIE_READ", .plain⟩,
  ⟨.gamma, "ProbabilityPlotCorrelationGammaGofStatistic", "PPCC", .plain⟩,
  ⟨.gamma, "GraphEdgesNumberGammaGofStatistic", "EDGESNUMBER", .graph⟩,
  ⟨.gamma, "GraphMaxDegreeGammaGofStatistic", "MAXDEGREE", .graph⟩,
  ⟨.gamma, "GraphAverageDegreeGammaGofStatistic", "AVGDEGREE", .graph⟩,
  ⟨.gamma, "GraphConnectedComponentsGammaGofStatistic", "CONNECTEDCOMPONENTS", .graph⟩,
  ⟨.gamma, "GraphCliqueNumberGammaGofStatistic", "CLIQUENUMBER", .graph⟩,
  ⟨.gamma, "GraphIndependenceNumberGammaGofStatistic", "INDEPENDENCENUMBER", .graph⟩]

/-- The concrete classes of `log_normal.py`, lines 64-340: class and short code. -/
def logNormalCriteria : List Criterion := [
  ⟨.logNormal, "KolmogorovSmirnovLogNormalGofStatistic", "KS", .plain⟩,
  ⟨.logNormal, "CramerVonMiseLogNormalGofStatistic", "CVM", .plain⟩,
  ⟨.logNormal, "QuesenberryMillerLogNormalGofStatistic", "QUESENBERRY_MILLER", .plain⟩,
  ⟨.logNormal, "KLSupremumLogNormalGoFStatistic", "KL_SUP", .plain⟩,
  ⟨.logNormal, "KLIntegralLogNormalGoFStatistic", "KL_INT", .plain⟩]

/-- The concrete classes of `normal.py`, lines 62-2502: class and short code. -/
def normalCriteria : List Criterion := [
  ⟨.normal, "KolmogorovSmirnovNormalityGofStatistic", "KS", .plain⟩,
  ⟨.normal, "AndersonDarlingNormalityGofStatistic", "AD", .plain⟩,
  ⟨.normal, "ShapiroWilkNormalityGofStatistic", "SW", .plain⟩,
  ⟨.normal, "CramerVonMiseNormalityGofStatistic", "CVM", .bare⟩,
  ⟨.normal, "LillieforsNormalityGofStatistic", "LILLIE", .plain⟩,
  ⟨.normal, "JBNormalityGofStatistic", "JB", .plain⟩,
  ⟨.normal, "SkewNormalityGofStatistic", "SKEW", .plain⟩,
  ⟨.normal, "KurtosisNormalityGofStatistic", "KURTOSIS", .plain⟩,
  ⟨.normal, "DAPNormalityGofStatistic", "DAP", .plain⟩,
  ⟨.normal, "FilliNormalityGofStatistic", "FILLI", .plain⟩,
  ⟨.normal, "LooneyGulledgeNormalityGofStatistic", "LG", .plain⟩,
  ⟨.normal, "RyanJoinerNormalityGofStatistic", "RJ", .plain⟩,
  ⟨.normal, "SFNormalityGofStatistic", "SF", .plain⟩,
  ⟨.normal, "EppsPulleyNormalityGofStatistic", "EP", .plain⟩,
  ⟨.normal, "Hosking2NormalityGofStatistic", "HOSKING2", .plain⟩,
  ⟨.normal, "Hosking1NormalityGofStatistic", "HOSKING1", .plain⟩,
  ⟨.normal, "Hosking3NormalityGofStatistic", "HOSKING3", .plain⟩,
  ⟨.normal, "Hosking4NormalityGofStatistic", "HOSKING4", .plain⟩,
  ⟨.normal, "ZhangWuCNormalityGofStatistic", "ZWC", .plain⟩,
  ⟨.normal, "ZhangWuANormalityGofStatistic", "ZWA", .plain⟩,
  ⟨.normal, "GlenLeemisBarrNormalityGofStatistic", "GLB", .plain⟩,
  ⟨.normal, "DoornikHansenNormalityGofStatistic", "DH", .plain⟩,
  ⟨.normal, "RobustJarqueBeraNormalityGofStatistic", "RJB", .plain⟩,
  ⟨.normal, "BontempsMeddahi1NormalityGofStatistic", "BM1", .plain⟩,
  ⟨.normal, "BontempsMeddahi2NormalityGofStatistic", "BM2", .plain⟩,
  ⟨.normal, "BonettSeierNormalityGofStatistic", "BS", .plain⟩,
  ⟨.normal, "MartinezIglewiczNormalityGofStatistic", "MI", .plain⟩,
  ⟨.normal, "CabanaCabana1NormalityGofStatistic", "CC1", .plain⟩,
  ⟨.normal, "CabanaCabana2NormalityGofStatistic", "CC2", .plain⟩,
  ⟨.normal, "ChenShapiroNormalityGofStatistic", "CS", .plain⟩,
  ⟨.normal, "ZhangQNormalityGofStatistic", "ZQ", .plain⟩,
  ⟨.normal, "CoinNormalityGofStatistic", "COIN", .plain⟩,
  ⟨.normal, "DagostinoNormalityGofStatistic", "D", .plain⟩,
  ⟨.normal, "ZhangQStarNormalityGofStatistic", "ZQS", .plain⟩,
  ⟨.normal, "SWRGNormalityGofStatistic", "SWRG", .plain⟩,
  ⟨.normal, "GMGNormalityGofStatistic", "GMG", .plain⟩,
  ⟨.normal, "BHSNormalityGofStatistic", "BHS", .plain⟩,
  ⟨.normal, "SpiegelhalterNormalityGofStatistic", "SH", .plain⟩,
  ⟨.normal, "DesgagneLafayeNormalityGofStatistic", "DLDMZEPD", .plain⟩,
  ⟨.normal, "GraphEdgesNumberNormalityGofStatistic", "EDGESNUMBER", .graph⟩,
  ⟨.normal, "GraphMaxDegreeNormalityGofStatistic", "MAXDEGREE", .graph⟩,
  ⟨.normal, "GraphAverageDegreeNormalityGofStatistic", "AVGDEGREE", .graph⟩,
  ⟨.normal, "GraphConnectedComponentsNormalityGofStatistic", "CONNECTEDCOMPONENTS", .graph⟩,
  ⟨.normal, "GraphCliqueNumberNormalityGofStatistic", "CLIQUENUMBER", .graph⟩,
  ⟨.normal, "GraphIndependenceNumberNormalityGofStatistic", "INDEPENDENCENUMBER", .graph⟩]

/-- The concrete classes of `student.py`, lines 69-462: class and short code. -/
def studentCriteria : List Criterion := [
  ⟨.student, "KolmogorovSmirnovStudentGofStatistic", "KS", .plain⟩,
  ⟨.student, "AndersonDarlingStudentGofStatistic", "AD", .plain⟩,
  ⟨.student, "CramerVonMisesStudentGofStatistic", "CVM", .plain⟩,
  ⟨.student, "KuiperStudentGofStatistic", "KUIPER", .plain⟩,
  ⟨.student, "WatsonStudentGofStatistic", "WATSON", .plain⟩,
  ⟨.student, "ZhangZcStudentGofStatistic", "ZHANG_ZC", .plain⟩,
  ⟨.student, "ZhangZaStudentGofStatistic", "ZHANG_ZA", .plain⟩,
  ⟨.student, "LillieforsStudentGofStatistic", "LILLIE", .plain⟩,
  ⟨.student, "ChiSquareStudentGofStatistic", "CHI2", .plain⟩]

/-- The concrete classes of `uniform.py`, lines 71-920: class and short code. -/
def uniformCriteria : List Criterion := [
  ⟨.uniform, "KolmogorovSmirnovUniformGofStatistic", "KS", .plain⟩,
  ⟨.uniform, "AndersonDarlingUniformGofStatistic", "AD", .plain⟩,
  ⟨.uniform, "CrammerVonMisesUniformGofStatistic", "CVM", .plain⟩,
  ⟨.uniform, "LillieforsTestUniformGofStatistic", "LILLIE", .plain⟩,
  ⟨.uniform, "Chi2PearsonUniformGofStatistic", "CHI2_PEARSON", .plain⟩,
  ⟨.uniform, "WatsonUniformGofStatistic", "WATSON", .plain⟩,
  ⟨.uniform, "KuiperUniformGofStatistic", "KUIPER", .plain⟩,
  ⟨.uniform, "GreenwoodTestUniformGofStatistic", "GREENWOOD", .plain⟩,
  ⟨.uniform, "BickelRosenblattUniformGofStatistic", "BICKEL_ROSENBLATT", .plain⟩,
  ⟨.uniform, "ZhangTestsUniformGofStatistic", "ZHANG", .plain⟩,
  ⟨.uniform, "SteinUniformGofStatistic", "STEIN_U", .plain⟩,
  ⟨.uniform, "CensoredSteinUniformGofStatistic", "CENSORED_STEIN_U", .plain⟩,
  ⟨.uniform, "NeymanSmoothTestUniformGofStatistic", "NEYMAN", .plain⟩,
  ⟨.uniform, "ShermanUniformGofStatistic", "SHERMAN", .plain⟩,
  ⟨.uniform, "QuesenberryMillerUniformGofStatistic", "QUESENBERRY_MILLER", .plain⟩]

/-- The concrete classes of `weibull.py`, lines 65-1397: class and short code. -/
def weibullCriteria : List Criterion := [
  ⟨.weibull, "MinToshiyukiWeibullGofStatistic", "MT", .plain⟩,
  ⟨.weibull, "Chi2PearsonWeibullGofStatistic", "CHI2_PEARSON", .plain⟩,
  ⟨.weibull, "LillieforsWeibullGofStatistic", "LILLIE", .plain⟩,
  ⟨.weibull, "CrammerVonMisesWeibullGofStatistic", "CVM", .plain⟩,
  ⟨.weibull, "AndersonDarlingWeibullGofStatistic", "AD", .plain⟩,
  ⟨.weibull, "KolmogorovSmirnovWeibullGofStatistic", "KS", .plain⟩,
  ⟨.weibull, "SbWeibullGofStatistic", "SB", .plain⟩,
  ⟨.weibull, "ST2WeibullGofStatistic", "ST2", .plain⟩,
  ⟨.weibull, "ST1WeibullGofStatistic", "ST1", .plain⟩,
  ⟨.weibull, "RSBWeibullGofStatistic", "RSB", .plain⟩,
  ⟨.weibull, "TikuSinghWeibullGofStatistic", "TS", .plain⟩,
  ⟨.weibull, "LOSWeibullGofStatistic", "LOS", .plain⟩,
  ⟨.weibull, "MSFWeibullGofStatistic", "MSF", .plain⟩,
  ⟨.weibull, "OKWeibullGofStatistic", "OK", .plain⟩,
  ⟨.weibull, "SBWeibullGofStatistic", "SB", .plain⟩,
  ⟨.weibull, "REJGWeibullGofStatistic", "REJG", .plain⟩,
  ⟨.weibull, "SPPWeibullGofStatistic", "SPP", .plain⟩,
  ⟨.weibull, "MahdiDoostparastWeibullGofStatistic", "MD", .plain⟩,
  ⟨.weibull, "WatsonWeibullGofStatistic", "W", .plain⟩,
  ⟨.weibull, "LiaoShimokawaWeibullGofStatistic", "LS", .plain⟩,
  ⟨.weibull, "KullbackLeiblerWeibullGofStatistic", "KL", .plain⟩,
  ⟨.weibull, "LaplaceTransform2WeibullGofStatistic", "LT2", .plain⟩,
  ⟨.weibull, "LaplaceTransform3WeibullGofStatistic", "LT3", .plain⟩,
  ⟨.weibull, "CabanaQuirozWeibullGofStatistic", "CQ*", .plain⟩]

/-- Python's `s.replace(pat, new)` on the characters, for a non-empty `pat`; `fuel` bounds the
number of steps. -/
def replaceChars : Nat → List Char → List Char → List Char → List Char
  | 0, s, _, _ => s
  | _ + 1, [], _, _ => []
  | n + 1, c :: cs, pat, new =>
    if pat.isPrefixOf (c :: cs) then new ++ replaceChars n ((c :: cs).drop pat.length) pat new
    else c :: replaceChars n cs pat new

def pyReplace (s pat new : String) : String :=
  String.ofList (replaceChars s.toList.length s.toList pat.toList new.toList)

/-- `EXPLICITLY_IMPLEMENTED_NORMAL_STATS`, `log_normal.py` 533-540. -/
def explicitlyImplemented : List String :=
  ["KolmogorovSmirnovNormalityGofStatistic", "CramerVonMiseNormalityGofStatistic",
   "QuesenberryMillerNormalityGofStatistic", "KLSupremumLogNormalGoFStatistic",
   "KLIntegralLogNormalGoFStatistic", "BHSNormalityGofStatistic"]

/-- The condition of the loop, `log_normal.py` 552-560. -/
def isWrapped (c : Criterion) : Bool :=
  !(explicitlyImplemented.contains c.cls) && !("Abstract".isPrefixOf c.cls) &&
    !("Graph".isPrefixOf c.cls)

/-- A criterion of the running library: its family, class name, short code and code. -/
structure Registered where
  family : Family
  cls : String
  short : String
  code : String
  deriving DecidableEq, Repr

def Criterion.register (c : Criterion) : Registered := ⟨c.family, c.cls, c.short, c.sourceCode⟩

/-- `_create_lognormal_class`, `log_normal.py` 478-528: name, short code and code. -/
def wrap (c : Criterion) : Registered :=
  ⟨.logNormal, pyReplace c.cls "Normality" "LogNormal", c.short,
    pyReplace c.sourceCode "NORMALITY" "LOGNORMAL"⟩

/-- All criteria of the library: the classes in the source and the wrappers generated by
`log_normal.py` 551-563. -/
def registry : List Registered :=
  (betaCriteria ++ exponentialCriteria ++ gammaCriteria ++ logNormalCriteria ++ normalCriteria ++
    studentCriteria ++ uniformCriteria ++ weibullCriteria).map Criterion.register ++
  (normalCriteria.filter isWrapped).map wrap

end Pysatl.Codes
