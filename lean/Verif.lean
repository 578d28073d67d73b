import Verif.Model.Basic
import Verif.Model.MultipleTesting
import Verif.Spec.MultipleTesting
import Verif.Lemmas.MultipleTesting
import Verif.Lemmas.MultipleTestingReal
import Verif.Props.MultipleTesting
import Verif.Props.ErrorRates
import Verif.Model.Decision
import Verif.Spec.Decision
import Verif.Lemmas.Decision
import Verif.Props.PValue
import Verif.Props.CriticalValue
import Verif.Props.Decision
import Verif.Props.MonteCarloLevel
import Verif.Model.Generators
import Verif.Spec.Generators
import Verif.Props.Generators
import Verif.Model.Codec
import Verif.Props.Codec
import Verif.Model.Storage
import Verif.Spec.Storage
import Verif.Lemmas.Storage
import Verif.Props.Storage
import Verif.Model.Resolver
import Verif.Props.Resolver
import Verif.Model.Loader
import Verif.Props.Loader
import Verif.Spec.Graph
import Verif.Model.Graph
import Verif.Lemmas.Graph
import Verif.Lemmas.GraphSearch
import Verif.Lemmas.GraphStat
import Verif.Props.Graph
import Verif.Model.Edf
import Verif.Spec.Edf
import Verif.Lemmas.Edf
import Verif.Props.Edf
import Verif.Props.Divergence
import Verif.Props.KsEvidence
import Verif.Model.Likelihood
import Verif.Spec.Likelihood
import Verif.Lemmas.Likelihood
import Verif.Props.Likelihood
import Verif.Props.LikelihoodSelect
import Verif.Model.Discovery
import Verif.Spec.Discovery
import Verif.Props.Discovery
import Verif.Model.Codes
import Verif.Props.Codes
import Verif.Model.Exponent
import Verif.Lemmas.Exponent
import Verif.Props.Exponent
import Verif.Props.ExponentRange
import Verif.Props.SampleObject
import Verif.Props.Sensitive
import Verif.Props.SensitiveExp
import Verif.Props.SensitiveNormal
import Verif.Props.NoAtoms
import Verif.Props.NoAtomsExp
import Verif.Spec.Exponent
import Verif.Props.ExponentMeaning
import Verif.Lemmas.Gaussian
import Verif.Props.Normal
import Verif.Model.LogNormal
import Verif.Spec.LogNormal
import Verif.Props.LogNormal
import Verif.Props.LogNormalKL
import Verif.Model.Uniform
import Verif.Spec.Uniform
import Verif.Lemmas.Legendre
import Verif.Props.Uniform
import Verif.Props.UniformMoments
import Verif.Spec.NullLaw
import Verif.Lemmas.NullLaw
import Verif.Props.NullLaw
import Verif.Props.NullMoments
import Verif.Model.Student
import Verif.Model.Gamma
import Verif.Model.Beta
import Verif.Spec.Zhang
import Verif.Lemmas.Correlation
import Verif.Props.Families
import Verif.Props.Mirror
import Verif.Props.Zhang
import Verif.Props.GammaStudent
import Verif.Model.Weibull
import Verif.Spec.Weibull
import Verif.Props.Weibull
import Verif.Spec.Medcouple
import Verif.Model.Medcouple
import Verif.Lemmas.Medcouple
import Verif.Props.Medcouple
import Verif.Props.MirrorOther
import Verif.Props.NormalReturn
import Verif.Spec.Pearson
import Verif.Props.PearsonCells
import Verif.Spec.Hermite
import Verif.Props.Hermite
import Verif.Spec.EppsPulley
import Verif.Props.EppsPulley
import Verif.Spec.Score
import Verif.Props.Score
import Verif.Lemmas.Expon
import Verif.Spec.Functional
import Verif.Props.Functional
import Verif.Props.TotalTime
import Verif.Spec.ExponSample
import Verif.Props.ExponMoments
import Verif.Spec.Plotting
import Verif.Props.Plotting
import Verif.Spec.LMoments
import Verif.Props.LMoments
import Verif.Model.NormalDomain
import Verif.Props.NormalDomain
import Verif.Props.NormalDomainScores
import Verif.Model.GeneratorLaws
import Verif.Spec.Laws
import Verif.Props.GeneratorLaws
import Verif.Model.Sample
import Verif.Props.Sample
import Verif.Spec.NormalPlot
import Verif.Props.NormalPlot
import Verif.Props.ShapiroWilk
import Verif.Lemmas.NormalTail
import Verif.Props.Royston
import Verif.Model.NormalTail
import Verif.Props.NormalTail
import Verif.Lemmas.NormalMirror
import Verif.Props.NormalMirror
import Verif.Spec.KaplanMeier
import Verif.Props.KaplanMeier
import Verif.Props.NormalZhang
import Verif.Spec.NormalShape
import Verif.Props.NormalShape
import Verif.Props.NormalFit
import Verif.Props.NormalMoments
import Verif.Spec.BetaLaw
import Verif.Lemmas.BetaLaw
import Verif.Lemmas.SampleMoments
import Verif.Props.BetaLaw
import Verif.Spec.AndersonDarling
import Verif.Props.AndersonDarling
import Verif.Spec.Sampling
import Verif.Model.Sampling
import Verif.Props.Sampling
import Verif.Lemmas.LawOfCdf
import Verif.Lemmas.StandardLaws
import Verif.Spec.SamplingLaws
import Verif.Props.SamplingLaws
import Verif.Lemmas.Level
import Verif.Lemmas.ListMeasurable
import Verif.Lemmas.NoTies
import Verif.Props.Calibration
import Verif.Props.CalibrationFamilies
import Verif.Spec.WeibullShape
import Verif.Props.WeibullMeaning
import Verif.Props.WeibullPlot
import Verif.Lemmas.NoTiesEdf
import Verif.Props.CalibrationSimple
import Verif.Props.CalibrationOther
import Verif.Spec.LikelihoodFit
import Verif.Model.LikelihoodFit
import Verif.Lemmas.GammaMle
import Verif.Props.LikelihoodFit
import Verif.Props.CalibrationCritical
import Verif.Props.CalibrationCvFamilies
import Verif.Spec.Float64
import Verif.Lemmas.Float64
import Verif.Model.MultipleTestingFloat
import Verif.Lemmas.MultipleTestingFloat
import Verif.Props.MultipleTestingFloat
import Verif.Model.DecisionFloat
import Verif.Props.DecisionFloat
import Verif.Lemmas.Harmonic
import Verif.Props.ErrorRatesLarge
import Verif.Model.LikelihoodReal
import Verif.Props.LikelihoodSupport
import Verif.Props.Construct
import Verif.Props.LikelihoodSpread
import Verif.Spec.Outlier
import Verif.Props.Outlier
import Verif.Props.OutlierMoments
import Verif.Props.KurtosisPole
import Verif.Props.ConsistencyHermite
import Verif.Lemmas.Sequences
import Verif.Lemmas.EdfDeviation
import Verif.Props.Consistency
import Verif.Props.ConsistencyEdf
import Verif.Props.ConsistencyFamilies
import Verif.Props.ConsistencyRefuted
import Verif.Props.ConsistencyLimit
import Verif.Props.ConsistencyExponential
import Verif.Lemmas.MomentLimits
import Verif.Lemmas.EmpiricalCdf
import Verif.Props.ConsistencyNormal
import Verif.Props.ConsistencyKurtosis
import Verif.Props.ConsistencyLilliefors
import Verif.Props.ConsistencyNormalRefuted
import Verif.Spec.Deviation
import Verif.Spec.Ageing
import Verif.Lemmas.MeanDeviation
import Verif.Lemmas.WeakConvergence
import Verif.Props.ConsistencyEppsPulley
import Verif.Props.ConsistencyDeviation
import Verif.Props.ConsistencyCounts
import Verif.Lemmas.CentralLimit
import Verif.Lemmas.ChiSquare
import Verif.Props.LimitLaw
import Verif.Props.LimitLawNormal
import Verif.Props.LimitLawMoments
import Verif.Props.LimitLawExponential
import Verif.Props.LimitLawTests
import Verif.Model.NonFinite
import Verif.Props.NonFinite
import Verif.Model.Concurrent
import Verif.Props.Concurrent
import Verif.Model.Connect
import Verif.Props.Connect
import Verif.Spec.FloatSum
import Verif.Model.EdfFloat
import Verif.Model.NormalFloat
import Verif.Lemmas.Float64Error
import Verif.Props.EdfFloat
import Verif.Props.NormalFloat
import Verif.Props.CabanaMirror
import Verif.Model.CriticalFloat
import Verif.Lemmas.Lerp
import Verif.Lemmas.LerpError
import Verif.Props.CriticalFloat
import Verif.Lemmas.ChiSquareFour
import Verif.Props.LimitLawHermite
import Verif.Props.LimitLawRobust
import Verif.Spec.Stability
import Verif.Props.Stability
import Verif.Props.ConsistencyFitted
import Verif.Spec.Scores
import Verif.Props.ConsistencyScores
import Verif.Props.ConsistencyHegazy
import Verif.Lemmas.PlotScores
import Verif.Props.ConsistencyPlot
import Verif.Props.ConsistencyLorenz
import Verif.Props.ConsistencyTotalTime
import Verif.Props.ConsistencyRossberg
import Verif.Spec.Range
import Verif.Props.ConsistencyRange
import Verif.Spec.Biweight
import Verif.Props.ConsistencyBiweight
import Verif.Spec.LMomentLaw
import Verif.Props.ConsistencyHosking
import Verif.Spec.TrimmedLaw
import Verif.Props.ConsistencyTrimmed
import Verif.Spec.DesgagneLaw
import Verif.Props.ConsistencyDesgagne
import Verif.Props.ConsistencyLogNormal
import Verif.Props.LimitLawLogNormal
import Verif.Props.Units
import Verif.Model.LogNormalEdf
import Verif.Props.LogNormalSimple
import Verif.Props.WrongSimulator
import Verif.Props.ConsistencyKs
import Verif.Props.ExponentialKsRefuted
