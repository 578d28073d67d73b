# Formal model of pysatl-criterion in Lean 4

Properties are listed in `properties.jsonl` (C01, C02, ...), their state in
`MANIFEST.json`.  The Lean project is `lean/`.  It is organised as

* `Verif/Spec/*.lean` - specifications: textbook formulas, graphs, abstract maps,
  probabilistic notions.  They do not mention the model.
* `Verif/Model/*.lean` - the model of the code, function by function, each
  definition citing file and lines in `/repo`.
* `Verif/Lemmas/*.lean` - helper lemmas.
* `Verif/Props/*.lean` - the property theorems `Cnn_...`, each with a non-vacuity
  example beside it.

A theorem `Cnn_...` without suffix states its part of the property in full.
`Cnn_..._partial` proves less than the property says; the docstring says what is
missing.  `Cnn_refuted...` proves that the property as stated is false of the code.
A property of which some theorem is a refutation or a partial one has the status
`partial` in the manifest, never `proved`.

## Modelling conventions

* Numbers.  Python floats are modelled by an arbitrary linearly ordered field `K`
  (`Rat` for concrete witnesses, `Real` where logarithms, suprema, integrals or
  probabilities occur).  Rounding, overflow, NaN and infinities are not modelled,
  except the literal `float("inf")` of `log_normal.py` and `np.inf` of the likelihood
  functions, which are a top element.  Where numpy would return NaN or an infinity the
  value in the model has no meaning, and the theorems exclude the case by hypothesis.
* Exceptions are values: `Except PyErr a`; only the class of the exception is kept.
* In-place mutation is modelled by returning the new value.
* `sorted`, `np.sort` are `List.insertionSort`: stable, so the result is the same list.
* The random generator is a state-passing function parameter; the database is a
  list of rows with an arbitrary choice of row order; zstd is a parameter pair with the
  law `decompress (compress x) = x`.
* External numerical functions (distribution functions of scipy, optimisers) are
  parameters; the facts assumed of them (monotone, continuous, values in [0,1], scale
  law) are hypotheses of the theorems that use them and are shown satisfiable.

## Plan per property

| id | modelled as | proof |
|----|-------------|-------|
| C01-C02 | `MultipleTesting.test` for five procedures over `Except` | case analysis |
| C03-C06 | `adjust` functions as list programs with index sorting | closed form of each procedure by a loop invariant, then order arguments on the closed form |
| C07, C08, C11 | p-values as random variables on a `MeasureTheory` probability space | union bound; independence product; counterexample on a four-point space for Holm |
| C09, C12 | as C03 | Bernoulli inequality; closed form |
| C10, C13 | textbook formulas in `Spec` | closed form; code violates the claim: refutation by witness and `_partial` theorem saying what is computed |
| C14, C15 | as C03 plus harmonic numbers | closed form; Benjamini-Yekutieli argument (Abel summation); beyond 10000 hypotheses refuted by the least favourable law (cyclic windows of equal p-values), with `H n - log n - 1/(2n)` increasing |
| C16-C19 | `ecdf` counting functions | counting lemmas |
| C20 | counting over which of B+1 values is the observed one | order-statistics counting; refutation and exact bound |
| C21-C23 | `np.quantile` with linear interpolation on the sorted distinct values | monotonicity of interpolation |
| C24-C28 | `decide`, factories, `GoodnessOfFitTest.test` | case analysis on the alternative |
| C29 | Monte Carlo loop over a state-passing generator | induction on the count |
| C30, C68, C69, C74 | tables of constructor keyword names and hypothesis keys; samplers as scipy distributions with shape, loc, scale | whole-table decision lifted to all parameter values |
| C31-C39, C42 | list-of-rows database, operations, crash points | refinement to a map by induction over histories |
| C40, C41, C75 | byte-level codec | round trip |
| C43-C47 | loader over two databases | set reasoning over list programs |
| C48-C54, C76 | adjacency lists, search with an explicit stack, two pointers, greedy | refinement to Mathlib `SimpleGraph` notions |
| C55-C60, C72, C73 | statistics as list programs over `K` or `Real` | order and integral arguments |
| C61-C65, C86, C92, C97 | every statistic of the seven families as a list program | permutation, scaling and location lemmas |
| C66, C67, C89 | string dispatch and code strings | whole-table evaluation, lifted to all samples |
| C70 | class hierarchy as a finite relation / tree | induction |
| C71, C78, C79 | likelihood functions over `Real`, selection loop; for the functions that call a scipy `fit` (`Model/LikelihoodFit`) the fit is a parameter, assumed to return a maximum likelihood estimate where a theorem says so | calculus for the maximisers; existence of the gamma estimate by compactness (`Lemmas/GammaMle`); Jensen's inequality for beta; loop invariant |
| C77 | the caller's sequence is the world of the computation; slices of arrays are views | case analysis |
| C80-C82, C95, C99 | statistics over `Real` | Cauchy-Schwarz, Chebyshev, Jensen type inequalities |
| C83-C85 | series branches of the Kullback-Leibler statistics, tables | limits by Taylor bounds; numeric bounds |
| C84 | infinite statistic is a top element | order |
| C87, C90 | samples as independent random variables, laws by `Measure` | probability integral transform, Fubini, Legendre polynomials |
| C88 | censoring marks as list or array | case analysis |
| C91 | reflection of the transformed sample | reindexing of sums |
| C93 | code and hypothesis as the calibration key | case analysis, witnesses |
| C94, C98 | formulas of the literature in `Spec` | reindexing; witnesses |
| C96 | pairs of samples with different values | witnesses: equal transformed values, midpoints and equal steps, pulled back through the distribution function; for exponentiality equal spacings, or one observation that dominates the mean; for normality samples of zeros and ones, or a level set of measure zero; pairs are blind for location-scale free criteria by C63 |
| C100 | Pearson's statistic from counts and probabilities in `Spec` | counting lemma for histograms |
| C101 | loops with fuel, `none` = still running | invariant of the stuck loop; case analysis |
| C102 | Mathlib's Hermite polynomials, normalised, in `Spec` | the code's polynomials are computed from Mathlib's recursion; witness for the doubled term |
| C103 | empirical characteristic function and Mathlib's `charFun`, `gaussianReal` in `Spec` | integrals of cosines against the normal law |
| C104 | Weibull and gamma log likelihoods in `Spec` | `HasDerivAt` of the likelihood at shape one |
| C105 | functionals of a measure in `Spec`, applied to the empirical law and `expMeasure` | moments and derivative of the gamma function; WE refuted |
| C106 | total time on test in `Spec`, order statistics by counting | telescoping of the normalised spacings |
| C107 | `ExponentialSample` in `Spec`: independent, law `expMeasure r` | Fubini for pairs and triples; sums by pattern of equal indices |
| C108 | `OrderStats`, `fittedExp`, `stabilise`, `kocharJ`, `MeanRankQuantiles` in `Spec` | sorting gives the order statistics; sums over positions; the centring integral by substitution |
| C109 | `kthSmallest`, `sampleLMoment` (averages over all subsamples) in `Spec` | counting the subsamples in which the i-th order statistic has a given rank |
| C110 | `Model/NormalDomain`: the same formulas with partial division, root, logarithm, power and normal quantile function | positivity of every denominator; the L-scale as a weighted sum of spacings; Pearson's inequality between skewness and kurtosis; half of the Martinez-Iglewicz weights exceed 0.9 and the rest -0.8; Royston's weights leave room for the inner ones; the pole of the kurtosis transform by the intermediate value theorem: samples of every size from 35 on reach it and none up to 34 |
| C111, C112 | scipy calls interpreted as measures: documented standard law, domain check, `loc + scale * z`; contaminated normals as choice followed by draw; `generate(n)` as a product measure | change of variables for densities and Gaussian measures; whole-table case analysis for the validators |
| C113 | `core/distributions/sample.py` over any field | sums over `Fin n` |
| C114 | `filli`, `looneyGulledge`, `ryanJoiner`, `shapiroFrancia`, `shapiroWilk`, `swrg` with `norm.ppf` the inverse of the normal distribution function | `Spec/NormalPlot`: correlation over order statistics and scores given by their distribution function; Cauchy-Schwarz and Chebyshev's sum inequality for the range. That Royston's corrections admit unit weights for every `n` is proved from bounds of the normal tail (`Lemmas/NormalTail`), for `n = 4, ..., 9` one by one and from ten on with a bound of the logarithm |
| C115 | all of `NormStat` | reversal of sorted lists, antisymmetry of every weight and plotting position; `scipy.stats` parameters symmetric, shown of the exact normal and beta distribution functions |
| C116 | `kaplanMeier`, `kmSurvival`, `weightedU` | `Spec/KaplanMeier`: the product-limit estimate as a product over distinct times; grouping of a sorted list by its ties |
| C117 | `jarqueBera`, `dagostino`, `bonettSeier`, `gmg`, `robustJarqueBera`, `bontempsMeddahi1/2`, `chenShapiro`, `zhangQ`, `zhangQStar`, `coin`, `martinezIglewicz`, `spiegelhalter`, `desgagneLafaye` | `Spec/NormalShape`: moments, mean difference, plot slopes, least squares cubic, biweight, Mathlib's Hermite polynomials; identities between sums over the sorted sample; Stirling's formula with bounds |
| C118 | `skewZ`, `kurtosisZ`, `dhZ1`, `dhZ2`, `dap` | the published transforms in `Spec/NormalShape`; strict monotonicity of arsinh and of the cube root; two concrete refutations; the order by kurtosis holds up to 34 observations and fails at every larger size |
| C119 | `momentBased`, `skewnessKurtosis`, `ratio`, `entropy`, `mode` of `Model/Beta` | moments of `betaMeasure` by shifting the exponent, `E log X` by differentiating under the integral, mode by `log t < t - 1`; expectation of the moment statistic by induction over independent observations |
| C120 | `ad` of `Model/Edf` and its six users | induction over the ordered values with the primitive `c² log u - (1-c)² log(1-u) - u` on each step; Gibbs' inequality for the minimum; `u(1-u) ≤ 1/4` against Cramer-von Mises |
| C121 | the sampling and distribution functions of `core/distributions` with any real parameters (`Model/Sampling`) | case analysis over the functions against the documented domains of `Spec/Sampling`; induction over the loop of the mixtures; witnesses at the border |
| C122 | the laws sampled by the same functions, and the distribution functions beside them | a density whose primitive runs from 0 to 1 is a probability law with that distribution function (`Lemmas/LawOfCdf`); one primitive for each standard law; Student by exchanging the order of integration with a gamma law; Tukey by monotony of the quantile function |
| C123 | the whole test by p-value with simulated reference values, on a source of random samples (`Props/Calibration`) | the map between two members of a family preserves the product measures and the statistic (C62, C63, C65); exchanging the data with one of the simulated samples preserves the law, and at most `⌊αB⌋ + 1` of `B + 1` distinct values are rejected; measurability of every statistic (`Lemmas/ListMeasurable`); ties have probability zero because hyperplanes and quadrics are null sets (`Lemmas/NoTies`), and so are the zeros of every analytic function that is not zero everywhere (`Lemmas/AnalyticNull`, `Props/NoAtoms`; on positive samples `Lemmas/AnalyticNullPos`, `Props/NoAtomsExp`) |
| C124 | every class of `weibull.py` (`Props/WeibullMeaning`, `Props/WeibullPlot`) | the functional in terms of the order statistics of the logarithms, with its own specification (`Spec/WeibullShape`); the scores by differentiating the extreme value quantile four times; refutations by bounds that hold at every positive sample |
| C125 | the empirical-distribution-function and spacing criteria of the uniform, Weibull, normal, exponential, gamma, beta, Student and log-normal families with the generators of C111 (`Lemmas/NoTiesEdf`, `Props/CalibrationSimple`, `Props/CalibrationOther`, `Model/LogNormalEdf`, `Props/LogNormalSimple`, `Props/WrongSimulator`) | the value of a criterion on a sample of the hypothesised law has no atoms (the transformed sample is uniform; each statistic is non-constant along one coordinate, so a value is taken on a null set), hence `monteCarlo_level` applies; gamma with another shape is refuted by computing the probability that the observation lies below all simulated ones |
| C126 | `GoodnessOfFitTest` with `CriticalValueDecisionMethod` and the Monte Carlo resolver | a rejection by critical values is one by p-value at a computed level, when simulated values are distinct; then C123 and C125 |
| C127 | the five corrections with every operation rounded (`Model/MultipleTestingFloat`) | rounding to nearest is monotone and fixes double precision numbers; step-up closed form with rounded weights; a number within 17/16 for the product of a p-value with n |
| C128 | the p-value calculators and `PValueDecisionMethod.decide` with every operation rounded (`Model/DecisionFloat`) | rounding error at most 2^-54 on [0,1]; fractions with denominators B and b are 2^-51 apart; the border case by computing two roundings exactly |
| C129 | the guards of the likelihood functions; the discrete ones also on arrays of floats (`Model/LikelihoodReal`) | one parameter that makes every sample inside the support possible; discrete uniform refuted |
| C130 | the discrete likelihood functions on integers and on floats | equality of the two models; `TypeError` of `comb` and `factorial` refutes it for binomial and Poisson |
| C131 | constructors and `hypothesis()` of all classes, objects as attribute dictionaries | case analysis over the constructors; the Ryan-Joiner and Student classes refute it |
| C132 | the same constructors | case analysis over the constructors; normal, exponential and Weibull refute it |
| C133 | the likelihood functions of the continuous families | each branch of the code evaluated; both directions |
| C134 | limits of the statistics of `normal.py` as one observation tends to infinity; largest skewness and kurtosis of `n` numbers (Samuelson's inequality) | `C134_skew`, `C134_jarqueBera`, `C134_gmg`, `C134_robustJarqueBera`, `C134_bontempsMeddahi1`, `C134_kurtosis` (9 to 34 observations); false of the kurtosis criterion and D'Agostino-Pearson from 35 observations on: `C134_refuted_kurtosis`, `C134_refuted_dap`; false of Martinez-Iglewicz: `C134_martinezIglewicz_limit`, `C134_refuted_martinezIglewicz` |
| C135 | data and simulated samples are independent products of laws (`iid`); a deviation of the empirical distribution function at one point bounds each statistic from below, Markov's inequality bounds the simulated values, the law of large numbers gives the deviation | `C135_uniform`, `C135_uniform_right`, `C135_weibull`, `C135_exponential_cvm`, `C135_normal_partial`, `C135_exponential_ks_partial`, `C135_gamma_partial`, `C135_student_partial`, `C135_beta_partial`, `C135_logNormal_partial`; false: `C135_refuted_logNormal`, `C135_refuted_beta`, `C135_refuted_student`, `C135_refuted_ks_left`, `C135_refuted_gamma`, `C135_refuted_normal`, `C135_refuted_exponential` |
| C136 | Functionals of `Spec/Functional` (C105); the law of large numbers shows that the functional of the empirical law tends to that of the law of the data (`SettlesAt`), so data and simulated values are separated by a threshold; `Consistent` as in C135, `Undetected` (power tends to zero) for the tail that is not looked at | `C136_coxOakes`, `C136_pietra`, `C136_atkinson`, `C136_eppsPulley_partial`, `C136_moran_partial`, `C136_we_partial`, `C136_shapiroWilk_partial`; false: `C136_refuted_eppsPulley`, `C136_refuted_moran`, `C136_refuted_we`, `C136_refuted_shapiroWilk`; `C136_gini` (mean difference of two observations, `Spec/Deviation`); counts of pairs and triples by weak convergence of the empirical law (`Lemmas/WeakConvergence`): `C136_deshpande_partial`, `C136_hollanderProschan_partial`, `C136_ahsanullah_partial`, false for laws that age the other way (`Spec/Ageing`): `C136_refuted_deshpande`, `C136_refuted_hollanderProschan`, `C136_refuted_ahsanullah`; quadruples: `C136_rossberg_partial`, false `C136_refuted_rossberg`; weighted sums of order statistics (`Spec/Scores`): `C136_kochar_partial`, `C136_lorenz_partial`, false `C136_refuted_kochar`, `C136_refuted_lorenz`, `C136_refuted_wongWong`; times on test up to an order statistic that settles at the quantile: `C136_gnedenko_partial`, `C136_harris_partial`, false `C136_refuted_gnedenko`, `C136_refuted_harris` |
| C137 | Moments of the empirical law tend to those of the law of the data (`Lemmas/MomentLimits`); the transformations of the codes are followed to their limits; for Lilliefors the empirical distribution function of the standardised sample tends uniformly to the standard normal one (`Lemmas/EmpiricalCdf`, Polya) or stays away from it at one point; `Consistent` and `Undetected` as in C135, C136 | `C137_jarqueBera`, `C137_dap`, `C137_doornikHansen`, `C137_bontempsMeddahi1`, `C137_bontempsMeddahi2`, `C137_robustJarqueBera`, `C137_bonettSeier`, `C137_lilliefors`, `C137_skew_partial`, `C137_kurtosis_partial`, `C137_eppsPulley` (characteristic function of the standardised sample), `C137_dagostino`, `C137_gmg_partial`, `C137_looneyGulledge`, `C137_ryanJoiner`, `C137_shapiroFrancia`, `C137_filliben` (average square of the normal scores tends to one, `Lemmas/PlotScores`; scores and standardised observations come together or stay apart in the mean square), `C137_spiegelhalter` (the range of the sample grows to the width of the law, `Spec/Range`; the power mean of the two ratios tends to the larger one), `C137_martinezIglewicz_partial` (sample median and median deviation settle, then the moments around them; `Spec/Biweight`), `C137_hosking1` (weighted sums of the order statistics settle at integrals of the distribution function, so the sample L-moments settle at those of the law, `Spec/LMomentLaw`), `C137_hosking_trimmed` (one, two, three observations trimmed; means of order statistics of the law, `Spec/TrimmedLaw`), `C137_desgagneLafaye_partial` (means of functions of the standardised sample whose slopes grow at most like a square settle; `Spec/DesgagneLaw`); false: `C137_refuted_martinezIglewicz`, `C137_refuted_skew`, `C137_refuted_kurtosis`, `C137_refuted_gmg` |
| C138 | `LimitLaw` (`Props/LimitLaw`): convergence in law under independent sampling. The central limit theorem for one, two and several averages (`Lemmas/CentralLimit`, `Lemmas/ChiSquareFour`, characteristic functions), sums of two and four squared normal variables (polar coordinates, convolution), and for each criterion a proof that it differs from an average of Hermite polynomials (Epps-Pulley: of an explicit influence function) by what tends to zero in probability | `C138_skew`, `C138_kurtosis`, `C138_jarqueBera`, `C138_dap`, `C138_bontempsMeddahi1`, `C138_bontempsMeddahi2`, `C138_doornikHansen`, `C138_eppsPulley`, `C138_level`; false: `C138_refuted_bonettSeier`, `C138_refuted_dagostino`, `C138_refuted_robustJarqueBera` |
| C139 | decisions with infinities and NaN among the numbers (Model/NonFinite): comparisons as in Python, the validation of `scipy.stats.ecdf` and of `np.quantile`, the position of NaN in `searchsorted`; proved by cases, with the finite part equal to Model/Decision and Model/MultipleTesting; false for a NaN statistic, refuted for every simulation and level |
| C140 | `adjust` of Model/MultipleTesting without `test`; equivalence for Bonferroni and Sidak, refuted for the other three |
| C141 | Model/Concurrent: calls split at their SQL statements, arbitrary schedules of arbitrarily many processes; invariants over schedules, forward simulation to the map of Spec/Storage with the completion of a call as its linearisation point; batches take the write lock at their first statement; refuted by four schedules |
| C142 | Model/Connect: constructor, `init`, `create_safe` against a server that may fail at each step; case analysis |
| C143 | Model/EdfFloat: the statistics with every operation rounded, Spec/Float64 and Spec/FloatSum (rounded sums in any order); relative error of rounding and of sums (Lemmas/Float64Error), compared with the exact statistics of C55, C56 |
| C144 | Model/NormalFloat: D'Agostino and Bontemps-Meddahi 1 with every operation rounded; refuted by computing the roundings of one sample for every round-to-nearest function; error bound of the one-pass variance |
| C145 | Model/CriticalFloat: the calculators, `np.quantile` with its two interpolation formulas and the decision with every operation rounded; the parts below and above one half of a rounded difference never exceed the difference together (Lemmas/Lerp), Lipschitz bound for the exact quantile |
| C146 | Model/Edf on two samples at once; one replaced observation changes the fraction below a point by 0 or 1/n with a fixed sign, several by induction over the places that differ; for recording errors, sorting does not enlarge differences |
| C147 | Model/Exponent with Model/Simulate and Model/GoodnessOfFit; Glivenko-Cantelli puts the plotting positions on the law's distribution function, the law of large numbers the fitted rate on its mean, and a law whose distribution function is the fitted exponential one almost everywhere is exponential; for Hegazy and Green the second moments of scores and observations agree and their truncated products come together; refuted for Kimber-Michael and for Hegazy and Green |
| C148 | Model/LogNormal (`wrappedStatistic`) with Model/Normal, Model/Simulate and Model/GoodnessOfFit; the class standardises the logarithms with the parameters of the hypothesis, which the location and scale invariance of the criteria (C63) undoes; the joint law of data and simulated samples is the image under the exponential of the joint law of the logarithms, and this map is a measurable embedding, so the probabilities are equal set by set (`C148_power`); the limits follow from C137 (`C148_detects`, `C148_every_law`, `C148_moments`, `C148_inherits_tails`) and C138 (`C148_values`, `C148_limit_laws`, `C148_level`) |
| C149 | Model/Normal, Model/Exponent, Model/LogNormal with Model/Simulate and Model/GoodnessOfFit; the joint law of data and simulated samples is the image of another joint law under a measurable equivalence that acts affinely on each sample, and the statistics do not notice it (C62, C63), almost surely; `SamePower` (`Props/Units`) states the equality of the rejection probabilities: `C149_normal`, `C149_reversed` (with C115), `C149_exponential`, `C149_lognormal` (through C148) |
| C150 | Model/Edf (`ks`), Model/Normal, Model/LogNormalEdf, Model/Gamma, Model/Student with Model/Simulate and Model/GoodnessOfFit; the statistic is a supremum over the line (C55), the empirical distribution function converges uniformly (Glivenko and Cantelli), so the value tends to `ksGap`; the decision follows from `value_consistent` and `value_undetected`: `C150_normal`, `C150_exponential`, `C150_logNormal`, `C150_gamma`, `C150_student` (`Props/ConsistencyKs`) |

Properties the code violates are kept as stated; the model then proves the negation
with a concrete witness and a `_partial` theorem for what does hold.

## Where the code and its documentation or the literature disagree

Multiple testing and decisions

* `Holm.adjust` computes Hochberg's step-up values (C10), so the family-wise error rate
  can exceed the threshold (C11); `SidakHolm` is single-step Sidak (C13).
* The right p-value leaves ties out (C19), there is no `+1` correction (C20), critical
  values ignore multiplicities (C23), and the two decision methods can disagree (C26).
* Two-sided and left-tailed Kolmogorov-Smirnov criteria reject very good fits (C72).

Simulation, storage, loading

* Keyword names reported by `hypothesis()` are not those of the generators for gamma,
  beta, log-normal and Student statistics, so the wrong distribution is simulated (C30);
  descriptor and generator of the log-normal disagree, five generators (Cauchy, Laplace,
  logistic, Student, Tukey) have no defaults although their descriptors do, and the generator of
  Gompertz defaults to eta = 0, which its descriptor rejects (C69); truncated normal, Weibull
  and inverse Gaussian parameters do not mean what the descriptors say (C74); the
  default of the inverse Gaussian fails its own validator (C68); Rice samples are centred
  at distance `nu * sigma` (C111); descriptors accept uniform, truncated normal and Rice
  parameters that cannot be sampled, and the default Gompertz and inverse Gaussian
  generators raise (C112); `moment(a)` is a central moment, hence 0 (C113).
* Sampling functions accept a scale of zero and contaminated laws a negative scale that is
  not drawn, a rate of zero is a `ZeroDivisionError`, and the distribution functions return NaN,
  where the documentation announces `ValueError` (C121); truncated normal samples leave the documented interval (C122).
* The storage resolver only finds distributions simulated with count 1 (C31);
  `get_data` raises once two experiments stored the same combination (C34);
  `sample_size_error` is ignored by `get_data_for_cv` (C37); `1` and `1.0` are
  different keys (C42); `load` never inserts (C43); bulk load swallows failures (C45,
  C47); unknown type codes are read as doubles (C75).
* Two criteria with one code and one hypothesis can compute different statistics and
  then share stored critical values (C67, C93).

Statistics

* Clique number: off by one, and 0 on constant samples (C52); graph independence
  statistic raises on arrays (C76); several statistics sort the caller's list, two
  of Hosking's the caller's array (C77).
* Uniform Watson is U^2/n + 1/4 (C57); Sherman and Quesenberry-Miller depend on the
  unit (C86); `bins="auto"` overflows on constant samples (C89); censored Stein doubles
  for a list of zeros (C88) and depends on the order of ties between censored and
  uncensored observations (C116); the uniform and Student Z_C and the uniform Z_K are not Zhang's (C94).
* Normal KS and CvM and exponential KS ignore the parameters (C63, C73), so for an exponential hypothesis of rate other than
  one there is another law that the KS test never detects (`C135_refuted_exponential`).
* Brys-Hubert-Struyf compares distances with `eps * (eps + |median|)`: samples far from zero, or of very small scale, count as having their median at the border (C63); for an odd sample size the median is put into the lower half only, so a sample and its mirror image differ (C115).  The clique statistic differs on mirror images too (C52, C115), and so do the two statistics of Cabana and Cabana (C115).
* Hegazy-Green, Kimber-Michael and the gamma probability plot reject for small
  distances, Rahman-Govindarajulu for large correlations, and the four criteria of Hosking judge a sum of
  squares two-sided, so that a perfect fit has the p-value 0, as do Lilliefors and Spiegelhalter with
  statistics of which only large values speak against normality (C80); the skewness
  criterion is right-tailed, so a sample with a long left tail is never rejected (C115); five log-normal criteria accept impossible samples (C84).
* Exponential WE uses the variance with divisor n in the formula for the unbiased one
  (C105).
* Log-normal Kullback-Leibler: the series branches are wrong by factors sqrt 6 and 1/6
  (C83); untabulated critical values are negative or grow with the level (C85).
* Student Lilliefors does not estimate location and scale although the documentation
  says so (C92); the gamma documentation calls `beta` a scale, the code uses it as rate.
* Beta: one observation or ties raise in some classes (C64); the entropy statistic is
  constant for fewer than four observations (C96).
* Weibull: the Anderson-Darling criterion and both Laplace transform criteria raise on
  every sample, Cabana-Quiroz on every list (C66); the constructor accepts any shape
  (C64); Smith-Bain does not sort (C61); Sb and OK use rounded constants whose weights
  do not add up to zero (C97); SPP pairs increasing with decreasing sequences (C98);
  Pearson's statistic lacks the factor n and its bins do not cover the line (C100).
* Normality: the medcouple criterion (BHS) loops for ever, because its weighted median
  sorts the whole work array including stale zeros (C101); Zhang's Q statistics index out
  of range for fewer than eight observations (C101); the statistic of Cabana and Cabana
  against wrong kurtosis adds its last term twice (C102); trimmed Hosking, Desgagne-Lafaye,
  Martinez-Iglewicz, Doornik-Hansen, the kurtosis criterion and D'Agostino-Pearson are undefined on some samples with spread (C110);
  Martinez-Iglewicz keeps the observations the biweight leaves out (C117); the kurtosis
  criterion changes sign for kurtosis near 1 in larger samples, and the skewness criterion
  is positive at skewness 0 (C118).
* `MomentBasedBetaGofStatistic` announces standardised differences, but divides the difference of the
  variances by the standard deviation of one observation, not by that of the sample variance (C119).
* Likelihoods: the shape equation of the Weibull likelihood is wrong, constant samples
  give 0, Wigner searches a bounded range (C78); `find_result_of_likelihood_function`
  raises on every sample, because the binomial function needs a second argument (C79).
* A tie between the statistic and a simulated value counts towards rejection in a criterion that rejects large values
  (the p-value is the fraction strictly above), so a discrete statistic exceeds its level: the Ahsanullah test of two
  exponential observations at level 1/20 with 99 simulations rejects with probability above 1/16 (C123).
* The Kullback-Leibler criterion for the Weibull family ignores the parameters of the hypothesis (C124).
* The Mahdi-Doostparast criterion compares the hypothetical distribution function with the empirical *survival*
  function; moving the largest observation further out lowers a statistic that rejects large values (C124).
* The Laplace transform criteria of Cabaña-Quiroz and Henze-Meintanis transform the observations instead of their
  logarithms; at every positive sample the value exceeds a fixed multiple of the sample size (C124).
* The stabilised probability plot criterion for the Weibull family is judged in the left tail (C80).

* The Monte Carlo test of a gamma hypothesis simulates with shape 1 whatever shape the hypothesis has, so that its level is not
  kept: with shape 1/2, one observation and 99 simulations the right-tailed Kolmogorov-Smirnov test at level 1/100 rejects a true
  hypothesis with probability at least 1/10 (C125).
* With one observation the Kuiper and Watson statistics do not depend on the observation; the test rejects always (C125).
* The chi-squared and Fisher likelihood functions fit a scale as well: the chi-squared value is always that of the gamma
  function, and a Fisher value can exceed every Fisher likelihood.  The Student likelihood with free degrees of freedom,
  location and scale has no largest value on any sample (C78).
* The critical value method counts repeated simulated values once: with a discrete statistic the test rejects a true
  hypothesis more often than the level allows (C126, Ahsanullah with two observations).
* Sidak's `1 - (1 - p) ** m` loses every p-value below 2^-54 to rounding: the adjusted value is 0, below the raw
  p-value, and the hypothesis is rejected at every positive threshold (C127).
* With 500 of 10000 simulated values beyond the statistic, a left-tailed criterion rejects at level 0.05 and a
  right-tailed one does not: `1.0 - 0.95 > 0.05` in double precision (C128).

- `benjaminiYekutieli` with more than 10000 hypotheses (`fdr.py:29-32`) divides by `log n + 0.577…`
  instead of the harmonic number, which is larger by about `1/(2n)`.  The false discovery rate is then
  not bounded by the threshold: `C15_refuted_large` gives, for every `n` from 10001 to 20000, valid
  p-values for which it is exceeded.  The excess is below one part in 100000 (`C15_by_fdr_sharp_partial`).

- `likelihood_function_discrete_uniform` does not check that the observations are whole numbers; a sample of
  fractions, impossible under every discrete uniform law, gets a positive likelihood (`C129_refuted_discreteUniform`).
- `likelihood_function_poisson` and `likelihood_function_binomial` raise `TypeError` for counts held in an array of
  floats, although they check for whole numbers as if floats were expected (`C130_refuted_poisson`,
  `C130_refuted_binomial`).

- `RyanJoinerNormalityGofStatistic.__init__` calls `super(AbstractNormalityGofStatistic).__init__()`,
  which initialises an unbound `super` object: `mean` and `var` are never assigned, `hypothesis()`
  is an `AttributeError`, and both resolvers fail for the criterion (`C131_refuted_ryanJoiner`).
- Criteria of the Student family take a location and a scale and do not report them
  (`C131_refuted_student`).
- Criteria of the normal, exponential and Weibull families accept a negative variance, a rate of
  zero, negative shapes and scales (`C132_refuted`); the other families raise `ValueError`.

- C134: the transform of the kurtosis (normal.py 379-417) has a pole at a kurtosis below that of normal samples. From 35 observations on, samples reach it: the value of the kurtosis criterion, and with it the D'Agostino-Pearson statistic, grows without bound as the kurtosis falls towards the pole. A sample with one observation far away is then not the most extreme one. Up to 34 observations no sample reaches the pole.
- C134: the statistic of Martinez and Iglewicz sums over every observation (normal.py 1331-1333), where the published statistic leaves out observations further than nine median deviations from the median. One far observation then dominates the "robust" scale, and the statistic, whose large values are held against normality, tends to `25/(n(n-1))`.

- C135: the one-sided Kolmogorov-Smirnov criterion `D-` is judged in the left tail although its large values speak against
  the hypothesis, so its power tends to zero against the laws it is meant for. A gamma hypothesis of shape other than one
  never detects gamma data of shape one (all reference samples have that law), and Kolmogorov-Smirnov and Cramer-von Mises
  for `N(m, v)`, `m` nonzero, never detect `N(-m, v)` (they compare with the standard normal law).

- C136: the criteria of Epps and Pulley, Moran, WE (right tail) and Shapiro and Wilk for exponentiality (left tail) are
  one-sided although both signs of the deviation speak against exponentiality. Observations uniform on (0, b) are rejected by
  Epps-Pulley, WE and Shapiro-Wilk with probability tending to zero, squares of exponential variables by Moran
  (`C136_refuted_*`). The counts of Deshpande, of Hollander and Proschan and of Ahsanullah and Rossberg are judged in the right tail too:
  Hollander and Proschan reject laws for which new is better than used - the alternative for which the criterion was
  made - with probability tending to zero, Ahsanullah and Rossberg laws for which new is worse than used, Deshpande Weibull laws with
  shape below 1.
- C137: the criteria of the sample skewness and of the sample kurtosis are two-sided in the literature, but their classes
  take the right tail. Left-skewed laws and uniform observations are rejected with a probability that tends to zero
  (`C137_refuted_skew`, `C137_refuted_kurtosis`); below a kurtosis of 5/3 the cube root of the Anscombe transformation changes sign
  and the criterion detects again (`C137_kurtosis_partial`). Gel, Miao and Gastwirth's ratio is judged in the right tail
  and misses the light tails of uniform observations (`C137_refuted_gmg`).
- C138: the criteria of Bonett and Seier and of D'Agostino subtract rounded constants (3 for 13.29 log √(π/2) = 3.0008...,
  0.28209479 for 1/(2√π)) and multiply the difference by √n. For large normal samples the values therefore exceed every bound
  instead of following the standard normal law (`C138_refuted_bonettSeier`, `C138_refuted_dagostino`). The drift is slow.
- C138: robust Jarque-Bera divides its second term by 64; for normal data the variance of that term tends to 72 π − 168 =
  58.2. The value follows `X² + 0.909 Y²` instead of the chi-square law, so a table of that law rejects too rarely
  (`C138_refuted_robustJarqueBera`).
- C139: `CriticalValueDecisionMethod` rejects whenever the statistic is not inside the acceptance region, and
  a comparison with NaN is false: a statistic without a value (the Jarque-Bera statistic of equal
  observations) is reported as rejected at every level; the p-value method reports p-value 0 for it
  unless the alternative is left-sided.
- C140: `adjust` of `Holm`, `SidakHolm` and `BenjaminiYekutieli` does not validate its argument.
- C141: `insert_data` reads the row first (`session.merge`) and writes it at the commit. Two processes that insert the same new key at the same time do not both succeed: one gets an `IntegrityError`. A process that updates a key while another deletes it gets a `StaleDataError` and its results are lost. With two experiments under the same combination, a deletion can complete although its query is ambiguous by then: no serial order explains the results. `insert_bulk_data` sends no statement for distributions that are stored already, so it takes no lock for them: another process can replace the first distribution of a batch before the batch writes the rest, and a lookup in between sees what no serial order explains.
- C144: D'Agostino, Bontemps-Meddahi 1, Coin and Desgagné-Lafaye compute the variance as the mean of the squares less the square of the mean (`normal.py` 1191, 1631, 1750, 2402). For observations whose spread is small against their location the result can be zero or negative: for the times `1757700000, 1757700000, 1757700002, 1757700002` it is `-512` instead of `1`, and `math.sqrt` raises `ValueError`. The exact statistics ignore shifts (C63).
- `estimation/maximum_likelihood/maximum_likelihood.py` 3 imports its sibling as a top-level module (`import function_for_maximum_likelihood`), so importing it as a part of the package raises `ModuleNotFoundError` unless that directory is on `sys.path`. The model (C71, C79) describes what its functions do once it is imported.
* Kimber-Michael, judged in the left tail, accepts in the long run every continuous law of positive observations that is not
  exponential, because its statistic tends to zero for exponential observations only (C147_refuted_kimberMichael).  So do the
  two criteria of Hegazy and Green for every law other than the one with which they compare (C147_refuted_hegazyGreen).
* Wong and Wong, judged in the right tail, never detect observations on an interval that keeps away from zero
  (C136_refuted_wongWong), Kochar, Lorenz and Gnedenko never squares of exponential variables (C136_refuted_kochar,
  C136_refuted_lorenz, C136_refuted_gnedenko), Harris never a population of which half fails early and half late
  (C136_refuted_harris).
- C137: the statistic of Martinez and Iglewicz includes the observations beyond nine median deviations (normal.py 1331-1333) and is judged in the right tail. A law under which one observation in fifteen is a gross error inflates the biweight scale more than the variance, and the probability of rejecting normality tends to zero (`C137_refuted_martinezIglewicz`).
- Samples for a log-normal hypothesis are simulated without its scale: the hypothesis calls the parameter `scale`, the
  generator has only `s` and `mu`. For every scale other than one, data of exactly the hypothesised law are rejected by the
  two-tailed Kolmogorov-Smirnov criterion with probability tending to one (`C125_refuted_logNormal`), and data of scale one
  are not detected (`C135_refuted_logNormal`).
- The same happens in the gamma, beta and Student families, whose generators are called without the shape, the shapes, or the
  location and scale. For every hypothesis that differs from the law that is simulated, the two-tailed Kolmogorov-Smirnov
  criterion rejects data of exactly the hypothesised law with probability tending to one (`C125_refuted_gamma_large`,
  `C125_refuted_beta`, `C125_refuted_student`).

## What is modelled

`hypothesis_testing/**` (all), `persistence/**` (all methods; SQL engine and zstd as
parameters), `distribution/**`, `generator/**`, `core/distributions/**` as parameter maps
(which scipy distribution with which shape, loc and scale is sampled, and the law of the
resulting array; the standard scipy laws are trusted from its documentation), `utils/**`,
`estimation/maximum_likelihood/**`, `statistics/goodness_of_fit/**`: all
classes of `common.py`, `graph_goodness_of_fit.py`, `exponent.py`, `uniform.py`,
`student.py`, `gamma.py`, `beta.py`, `weibull.py`, `log_normal.py`, and `normal.py`.

## What is not modelled

* floating point arithmetic, except in the multiple testing corrections and the p-value and critical-value methods (C127, C128, C145), distances between distribution functions (C143) and one-pass variances (C144), and infinities and NaN, except in the decisions (C139) and where a normality criterion has no value (C110); random number generation, SQL, compression, logging,
  environment variables (`utils/constants.py`), package metadata;
* numerical libraries: `scipy.stats` distribution functions, optimisers and fits are
  parameters;
* in the concurrent model (C141): lock time-outs, isolation weaker than atomic statements;
* the empty sample, where numpy's result is NaN and a warning;
* abstract base classes for independence statistics: there is no implementation.

## Trusted base

Lean's kernel; the axioms `propext`, `Classical.choice`, `Quot.sound` - every theorem
depends on at most these three, none of them ours; Mathlib's definitions that occur in
statements (measures, integrals, graphs, real functions); the definitions in
`Verif/Spec`; and the faithfulness of `Verif/Model` to the source, which is checked only
by reading and by the seeded faults in `seeded/LOG.jsonl`: edits of the model that a
realistic bug would make, with the theorems that then fail.

How to read the log: `failed_directly` lists what Lean reported as failing after the edit.  `theorems_failed` adds the
theorems whose proofs use those lemmas in the unedited sources.  These are inferred, not observed: Lean does not build a
module whose imports failed, so their own statements were not tried against the edited model, and a failing proof of a
lemma does not by itself show that a theorem above it is false of the edit.  Of the 383 entries, 102 have a theorem of the
property named in `claim` among the failures Lean reported, and 133 have one among the inferred failures only.  In 143 the
failures are theorems of other properties, or the claim is described in words without an identifier; there the edit is
caught, but not shown to be caught by a theorem stating that claim.  5 edits left everything provable: one differs from the original only at an exact tie with the tolerance
and breaks no listed claim (m374), three led to tightened theorems that reject the edit when it is repeated (m520r, m530r, m532r), and for m408 see
its entry.
No `sorry`, `native_decide`, `bv_decide` or added axiom is used.
