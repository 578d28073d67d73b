{
 "claims": [
  {
   "property": "C01",
   "status": "proved",
   "theorems": [
    "Pysatl.Props.C01_validation"
   ],
   "note": ""
  },
  {
   "property": "C02",
   "status": "proved",
   "theorems": [
    "Pysatl.Props.C02_shape",
    "Pysatl.Props.C02_threshold_monotone",
    "Pysatl.Props.C02_adjusted_is_adjust"
   ],
   "note": ""
  },
  {
   "property": "C03",
   "status": "proved",
   "theorems": [
    "Pysatl.Props.C03_bounds"
   ],
   "note": ""
  },
  {
   "property": "C04",
   "status": "proved",
   "theorems": [
    "Pysatl.Props.C04_order"
   ],
   "note": ""
  },
  {
   "property": "C05",
   "status": "proved",
   "theorems": [
    "Pysatl.Props.C05_permutation"
   ],
   "note": ""
  },
  {
   "property": "C06",
   "status": "proved",
   "theorems": [
    "Pysatl.Props.C06_monotone_evidence"
   ],
   "note": ""
  },
  {
   "property": "C07",
   "status": "proved",
   "theorems": [
    "Pysatl.Props.C07_bonferroni_fwer"
   ],
   "note": ""
  },
  {
   "property": "C08",
   "status": "proved",
   "theorems": [
    "Pysatl.Props.C08_sidak_fwer",
    "Pysatl.Props.C08_sidakHolm_fwer"
   ],
   "note": ""
  },
  {
   "property": "C09",
   "status": "proved",
   "theorems": [
    "Pysatl.Props.C09_sidak_le_bonferroni"
   ],
   "note": ""
  },
  {
   "property": "C10",
   "status": "partial",
   "theorems": [
    "Pysatl.Props.C10_refuted",
    "Pysatl.Props.C10_holm_partial"
   ],
   "note": "The full property is false of the code: Holm.adjust computes the Hochberg step-up values (C10_refuted is the counterexample). Proved instead: exact equality with Hochberg, and domination by Holm."
  },
  {
   "property": "C11",
   "status": "partial",
   "theorems": [
    "Pysatl.Props.C11_refuted",
    "Pysatl.Props.C11_holm_fwer_partial"
   ],
   "note": "False of the code: FWER 0.06 at threshold 0.05 on an explicit 4-point space. Proved instead: FWER at most alpha times the harmonic number of the number of true nulls."
  },
  {
   "property": "C12",
   "status": "proved",
   "theorems": [
    "Pysatl.Props.C12_holm_le_bonferroni"
   ],
   "note": ""
  },
  {
   "property": "C13",
   "status": "partial",
   "theorems": [
    "Pysatl.Props.C13_refuted",
    "Pysatl.Props.C13_sidakHolm_partial"
   ],
   "note": "False of the code: SidakHolm returns the single-step Sidak values. Proved instead: it equals Sidak and dominates the step-down values."
  },
  {
   "property": "C14",
   "status": "proved",
   "theorems": [
    "Pysatl.Props.C14_benjamini_yekutieli",
    "Pysatl.Props.C14_benjamini_yekutieli_large"
   ],
   "note": ""
  },
  {
   "property": "C15",
   "status": "partial",
   "theorems": [
    "Pysatl.Props.C15_by_fdr",
    "Pysatl.Props.C15_by_fdr_large_partial",
    "Pysatl.Props.C15_by_fdr_sharp_partial",
    "Pysatl.Props.C15_refuted_large"
   ],
   "note": "Proved in full for at most 10000 hypotheses. Beyond that the code uses log n + 0.577..., which is below the harmonic number: for every n from 10001 to 20000 and every threshold up to 1/2 the bound is refuted by least favourable p-values (C15_refuted_large), and the bound proved is 1.00001 alpha m0/n."
  },
  {
   "property": "C16",
   "status": "proved",
   "theorems": [
    "Pysatl.Props.C16_pvalue_range"
   ],
   "note": ""
  },
  {
   "property": "C17",
   "status": "proved",
   "theorems": [
    "Pysatl.Props.C17_pvalue_monotone"
   ],
   "note": ""
  },
  {
   "property": "C18",
   "status": "proved",
   "theorems": [
    "Pysatl.Props.C18_pvalue_multiset"
   ],
   "note": ""
  },
  {
   "property": "C19",
   "status": "partial",
   "theorems": [
    "Pysatl.Props.C19_refuted",
    "Pysatl.Props.C19_ties_partial"
   ],
   "note": "False for the right tail: 1 - ecdf leaves ties out. Proved: the left value counts ties, the right value is the fraction strictly above, and equals the claimed fraction when no simulated value ties."
  },
  {
   "property": "C20",
   "status": "partial",
   "theorems": [
    "Pysatl.Props.C20_refuted_ties",
    "Pysatl.Props.C20_refuted",
    "Pysatl.Props.C20_count_partial",
    "Pysatl.Props.C20_level_partial"
   ],
   "note": "False of the code: ties break it, and even without ties the missing +1 correction lets floor(alpha*B)+1 of B+1 be rejected. Proved: the exact tie-free count bound and the probability bound for exchangeable values."
  },
  {
   "property": "C21",
   "status": "proved",
   "theorems": [
    "Pysatl.Props.C21_critical_value_in_range",
    "Pysatl.Props.C21_level_out_of_range"
   ],
   "note": ""
  },
  {
   "property": "C22",
   "status": "proved",
   "theorems": [
    "Pysatl.Props.C22_critical_value_monotone"
   ],
   "note": ""
  },
  {
   "property": "C23",
   "status": "partial",
   "theorems": [
    "Pysatl.Props.C23_refuted",
    "Pysatl.Props.C23_quantile_partial"
   ],
   "note": "False of the code: repeated simulated values are counted once (scipy ecdf keeps distinct quantiles). Proved for samples without repetitions."
  },
  {
   "property": "C24",
   "status": "proved",
   "theorems": [
    "Pysatl.Props.C24_decision",
    "Pysatl.Props.C24_monotone_level"
   ],
   "note": ""
  },
  {
   "property": "C25",
   "status": "proved",
   "theorems": [
    "Pysatl.Props.C25_pvalue_decision"
   ],
   "note": ""
  },
  {
   "property": "C26",
   "status": "partial",
   "theorems": [
    "Pysatl.Props.C26_refuted",
    "Pysatl.Props.C26_agreement_partial"
   ],
   "note": "False of the code. Proved: the two methods can disagree only if the p-value is within 1/n (2/n two-sided) of the level or the statistic equals the right critical value."
  },
  {
   "property": "C27",
   "status": "proved",
   "theorems": [
    "Pysatl.Props.C27_result_fields",
    "Pysatl.Props.C27_no_limit_distribution",
    "Pysatl.Props.C27_statistic_error"
   ],
   "note": ""
  },
  {
   "property": "C28",
   "status": "proved",
   "theorems": [
    "Pysatl.Props.C28_tail",
    "Pysatl.Props.C28_sample_size"
   ],
   "note": ""
  },
  {
   "property": "C29",
   "status": "proved",
   "theorems": [
    "Pysatl.Props.C29_monte_carlo"
   ],
   "note": ""
  },
  {
   "property": "C30",
   "status": "partial",
   "theorems": [
    "Pysatl.Props.C30_simulates_null_partial",
    "Pysatl.Props.C30_refuted"
   ],
   "note": "False for gamma, beta, log-normal and Student statistics: keyword names differ from the generator (or are not reported) and are silently dropped. Exact characterisation of the parameter values for which it holds."
  },
  {
   "property": "C31",
   "status": "partial",
   "theorems": [
    "Pysatl.Props.C31_single_run_partial",
    "Pysatl.Props.C31_refuted"
   ],
   "note": "False: the resolver asks for monte_carlo_count=1, so every distribution simulated with another count is missed."
  },
  {
   "property": "C32",
   "status": "proved",
   "theorems": [
    "Pysatl.Props.C32_refines_map",
    "Pysatl.Props.C32_engine_independent"
   ],
   "note": ""
  },
  {
   "property": "C33",
   "status": "proved",
   "theorems": [
    "Pysatl.Props.C33_insert_get"
   ],
   "note": ""
  },
  {
   "property": "C34",
   "status": "partial",
   "theorems": [
    "Pysatl.Props.C34_get_total_partial",
    "Pysatl.Props.C34_refuted"
   ],
   "note": "False: MultipleResultsFound once two experiments stored the same combination; that is the only failure."
  },
  {
   "property": "C35",
   "status": "proved",
   "theorems": [
    "Pysatl.Props.C35_delete_get"
   ],
   "note": ""
  },
  {
   "property": "C36",
   "status": "proved",
   "theorems": [
    "Pysatl.Props.C36_best_for_cv"
   ],
   "note": ""
  },
  {
   "property": "C37",
   "status": "partial",
   "theorems": [
    "Pysatl.Props.C37_exact_size_partial",
    "Pysatl.Props.C37_refuted"
   ],
   "note": "False: sample_size_error is ignored. Proved for tolerance 0."
  },
  {
   "property": "C38",
   "status": "proved",
   "theorems": [
    "Pysatl.Props.C38_bulk_lookup"
   ],
   "note": ""
  },
  {
   "property": "C39",
   "status": "proved",
   "theorems": [
    "Pysatl.Props.C39_bulk_atomic"
   ],
   "note": ""
  },
  {
   "property": "C40",
   "status": "proved",
   "theorems": [
    "Pysatl.Props.C40_round_trip"
   ],
   "note": ""
  },
  {
   "property": "C41",
   "status": "proved",
   "theorems": [
    "Pysatl.Props.C41_malformed"
   ],
   "note": ""
  },
  {
   "property": "C42",
   "status": "partial",
   "theorems": [
    "Pysatl.Props.C42_same_type_partial",
    "Pysatl.Props.C42_refuted"
   ],
   "note": "False: integer 1 and float 1.0 are different JSON texts. Proved when equal numbers have equal types."
  },
  {
   "property": "C43",
   "status": "partial",
   "theorems": [
    "Pysatl.Props.C43_load_effect_partial",
    "Pysatl.Props.C43_already_local_partial",
    "Pysatl.Props.C43_second_lookup_partial",
    "Pysatl.Props.C43_refuted"
   ],
   "note": "False: load never inserts unless the remote storage changes between its two lookups. The exact effect of load is proved in both cases."
  },
  {
   "property": "C44",
   "status": "proved",
   "theorems": [
    "Pysatl.Props.C44_accounting"
   ],
   "note": ""
  },
  {
   "property": "C45",
   "status": "partial",
   "theorems": [
    "Pysatl.Props.C45_available_partial",
    "Pysatl.Props.C45_refuted_insert",
    "Pysatl.Props.C45_refuted_tolerance"
   ],
   "note": "False when the local insert fails (swallowed) and when the tolerance is positive. Proved otherwise."
  },
  {
   "property": "C46",
   "status": "proved",
   "theorems": [
    "Pysatl.Props.C46_idempotent"
   ],
   "note": ""
  },
  {
   "property": "C47",
   "status": "partial",
   "theorems": [
    "Pysatl.Props.C47_not_found_partial",
    "Pysatl.Props.C47_refuted"
   ],
   "note": "False without a remote storage. Proved with one."
  },
  {
   "property": "C48",
   "status": "proved",
   "theorems": [
    "Pysatl.Props.C48_threshold_graph"
   ],
   "note": ""
  },
  {
   "property": "C49",
   "status": "proved",
   "theorems": [
    "Pysatl.Props.C49_edges"
   ],
   "note": "For the range, exponentiality and normality threshold rules; the gamma family follows with C54_gamma."
  },
  {
   "property": "C50",
   "status": "proved",
   "theorems": [
    "Pysatl.Props.C50_degrees"
   ],
   "note": ""
  },
  {
   "property": "C51",
   "status": "proved",
   "theorems": [
    "Pysatl.Props.C51_components",
    "Pysatl.Props.C51_components_any"
   ],
   "note": ""
  },
  {
   "property": "C52",
   "status": "partial",
   "theorems": [
    "Pysatl.Props.C52_clique_partial",
    "Pysatl.Props.C52_within_one_partial",
    "Pysatl.Props.C52_constant",
    "Pysatl.Props.C52_refuted"
   ],
   "note": "False: one too large when the top cluster is a largest clique, 0 on constant samples. The exact value is proved."
  },
  {
   "property": "C53",
   "status": "proved",
   "theorems": [
    "Pysatl.Props.C53_independence"
   ],
   "note": ""
  },
  {
   "property": "C54",
   "status": "partial",
   "theorems": [
    "Pysatl.Props.C54_permutation",
    "Pysatl.Props.C54_gamma",
    "Pysatl.Props.C54_shift_partial",
    "Pysatl.Props.C54_scale_partial",
    "Pysatl.Props.C54_refuted_exponential",
    "Pysatl.Props.C54_refuted_normality"
   ],
   "note": "Order: all rules. Shift: range and normality rules. Scale: range rule. False otherwise."
  },
  {
   "property": "C55",
   "status": "proved",
   "theorems": [
    "Pysatl.Props.C55_sup_distance"
   ],
   "note": ""
  },
  {
   "property": "C56",
   "status": "proved",
   "theorems": [
    "Pysatl.Props.C56_integral",
    "Pysatl.Props.C56_lower_bound"
   ],
   "note": ""
  },
  {
   "property": "C57",
   "status": "partial",
   "theorems": [
    "Pysatl.Props.C57_families_partial",
    "Pysatl.Props.C57_uniform_partial",
    "Pysatl.Props.C57_refuted"
   ],
   "note": "False for the uniform family, which computes U^2/n + 1/4 (exact value proved); the other four agree and equal the integral."
  },
  {
   "property": "C58",
   "status": "proved",
   "theorems": [
    "Pysatl.Props.C58_kuiper"
   ],
   "note": ""
  },
  {
   "property": "C59",
   "status": "proved",
   "theorems": [
    "Pysatl.Props.C59_pearson",
    "Pysatl.Props.C59_power_divergence",
    "Pysatl.Props.C59_totals_needed",
    "Pysatl.Props.C59_continuous_in_power",
    "Pysatl.Props.C59_likelihood_ratio_limit"
   ],
   "note": "For every lambda, not only 1 and 0."
  },
  {
   "property": "C60",
   "status": "proved",
   "theorems": [
    "Pysatl.Props.C60_greenwood",
    "Pysatl.Props.C60_sherman",
    "Pysatl.Props.C60_quesenberryMiller"
   ],
   "note": ""
  },
  {
   "property": "C61",
   "status": "partial",
   "theorems": [
    "Pysatl.Props.C61_exponential",
    "Pysatl.Props.C61_normal",
    "Pysatl.Props.C61_lognormal",
    "Pysatl.Props.C61_uniform",
    "Pysatl.Props.C61_censored",
    "Pysatl.Props.C61_student",
    "Pysatl.Props.C61_gamma",
    "Pysatl.Props.C61_beta",
    "Pysatl.Props.C61_weibull_partial",
    "Pysatl.Props.C61_refuted_rsb"
   ],
   "note": "Exponential (24 classes), normal (38 classes), log-normal (41 classes), uniform (15 classes), Student, gamma and beta families. False for the Smith-Bain criterion of the Weibull family, which does not sort; the other Weibull criteria are covered. The graph statistics are in C54."
  },
  {
   "property": "C62",
   "status": "proved",
   "theorems": [
    "Pysatl.Props.C62_scale",
    "Pysatl.Props.C62_refuted_hegazyGreen"
   ],
   "note": "Every scale-free statistic; the Hegazy-Green statistics are not scale free."
  },
  {
   "property": "C63",
   "status": "partial",
   "theorems": [
    "Pysatl.Props.C63_location_scale",
    "Pysatl.Props.C63_refuted_ks_cvm",
    "Pysatl.Props.C63_refuted_bhs"
   ],
   "note": "True for 36 of the 38 classes; false for Kolmogorov-Smirnov and Cramer-von Mises, which compare with the standard normal distribution. False for Brys-Hubert-Struyf, whose tolerance is relative to the median: a sample far from zero or of very small scale is taken for one with its median at the border. The graph statistics are in C54."
  },
  {
   "property": "C64",
   "status": "partial",
   "theorems": [
    "Pysatl.Props.C64_uniform",
    "Pysatl.Props.C64_uniform_init",
    "Pysatl.Props.C64_beta_outside",
    "Pysatl.Props.C64_beta_inside_partial",
    "Pysatl.Props.C64_refuted_beta",
    "Pysatl.Props.C64_beta_init",
    "Pysatl.Props.C64_lognormal_init",
    "Pysatl.Props.C64_gamma_init",
    "Pysatl.Props.C64_student_init",
    "Pysatl.Props.C64_refuted_weibull"
   ],
   "note": "Uniform, beta, gamma, log-normal and Student. False for some beta statistics inside the support. The normal, exponential and Weibull constructors do not validate."
  },
  {
   "property": "C65",
   "status": "proved",
   "theorems": [
    "Pysatl.Props.C65_wrapped",
    "Pysatl.Props.C65_simulated",
    "Pysatl.Props.C65_parameter_free",
    "Pysatl.Props.C65_explicit",
    "Pysatl.Props.C65_kullback"
   ],
   "note": "All derived classes, the two explicit distribution-function classes and the two Kullback-Leibler classes."
  },
  {
   "property": "C66",
   "status": "partial",
   "theorems": [
    "Pysatl.Props.C66_partial",
    "Pysatl.Props.C66_refuted_ad",
    "Pysatl.Props.C66_refuted_laplace",
    "Pysatl.Props.C66_refuted_cabanaQuiroz",
    "Pysatl.Props.C66_refuted_small"
   ],
   "note": "20 criteria return a value for every positive sample of at least three observations. Anderson-Darling raises TypeError and the two Laplace transform criteria ValueError on every sample; Cabana-Quiroz raises TypeError on every list."
  },
  {
   "property": "C67",
   "status": "partial",
   "theorems": [
    "Pysatl.Props.C67_unique_partial",
    "Pysatl.Props.C67_family_partial",
    "Pysatl.Props.C67_family_refuted",
    "Pysatl.Props.C67_refuted"
   ],
   "note": "Over all 195 criteria (159 classes in the source and 36 generated log-normal ones). False for SbWeibullGofStatistic and SBWeibullGofStatistic, which share SB_WEIBULL_GOODNESS_OF_FIT; all other codes are distinct."
  },
  {
   "property": "C68",
   "status": "partial",
   "theorems": [
    "Pysatl.Props.C68_registry_partial",
    "Pysatl.Props.C68_refuted"
   ],
   "note": "False only for the inverse Gaussian default mu = 0."
  },
  {
   "property": "C69",
   "status": "partial",
   "theorems": [
    "Pysatl.Props.C69_descriptor_generator_partial",
    "Pysatl.Props.C69_refuted",
    "Pysatl.Props.C69_defaults_partial",
    "Pysatl.Props.C69_refuted_defaults"
   ],
   "note": "False for the log-normal (names mean/var vs s/mu); proved for the other 20 distributions. Default values: a generator built without parameters has the defaults of the descriptor for thirteen distributions; five generators need their parameters (TypeError), and exponential, Gompertz and log-normal have other defaults, Gompertz one its own descriptor rejects."
  },
  {
   "property": "C70",
   "status": "proved",
   "theorems": [
    "Pysatl.Props.C70_subclasses",
    "Pysatl.Props.C70_criteria",
    "Pysatl.Props.C70_generator",
    "Pysatl.Props.C70_descriptor",
    "Pysatl.Props.C70_refuted_iterator"
   ],
   "note": "The set-based discovery and all three public functions are right; the internal descriptor iterator repeats a class with several paths to it."
  },
  {
   "property": "C71",
   "status": "partial",
   "theorems": [
    "Pysatl.Props.C71_select_partial",
    "Pysatl.Props.C71_refuted",
    "Pysatl.Props.C71_refuted_typeError"
   ],
   "note": "The loop is right for any list of functions that all return; over the functions of the module the call never returns, because likelihood_function_binomial needs a second argument (TypeError)."
  },
  {
   "property": "C72",
   "status": "partial",
   "theorems": [
    "Pysatl.Props.C72_right_partial",
    "Pysatl.Props.C72_left_reversed",
    "Pysatl.Props.C72_refuted_two_tailed",
    "Pysatl.Props.C72_refuted_left"
   ],
   "note": "True for right-tailed criteria; false for two-tailed (the default) and left-tailed ones, where very small distances are rejected."
  },
  {
   "property": "C73",
   "status": "partial",
   "theorems": [
    "Pysatl.Props.C73_edf_null_partial",
    "Pysatl.Props.C73_refuted"
   ],
   "note": "False for normal KS and CvM (mean and variance ignored) and exponential KS (rate ignored); exact characterisation proved."
  },
  {
   "property": "C74",
   "status": "partial",
   "theorems": [
    "Pysatl.Props.C74_documented_meaning_partial",
    "Pysatl.Props.C74_refuted"
   ],
   "note": "False of the code; proved at the parameter values where the parametrisations coincide."
  },
  {
   "property": "C75",
   "status": "partial",
   "theorems": [
    "Pysatl.Props.C75_refuted",
    "Pysatl.Props.C75_written_codes_partial"
   ],
   "note": "False: any unknown code is read as double precision. Proved: the library only writes codes 1 and 2."
  },
  {
   "property": "C76",
   "status": "partial",
   "theorems": [
    "Pysatl.Props.C76_evaluates_partial",
    "Pysatl.Props.C76_refuted",
    "Pysatl.Props.C76_refuted_zero"
   ],
   "note": "False: the independence statistic raises ValueError on every array of two or more observations."
  },
  {
   "property": "C77",
   "status": "partial",
   "theorems": [
    "Pysatl.Props.C77_unchanged_partial",
    "Pysatl.Props.C77_refuted",
    "Pysatl.Props.C77_exponential_partial",
    "Pysatl.Props.C77_refuted_exponential",
    "Pysatl.Props.C77_hosking_partial",
    "Pysatl.Props.C77_refuted_hosking"
   ],
   "note": "False: the clique and independence statistics and several exponentiality statistics sort the caller's list in place; the Hosking statistics that trim two and three observations sort the caller's array (not a list)."
  },
  {
   "property": "C78",
   "status": "partial",
   "theorems": [
    "Pysatl.Props.C78_uniform",
    "Pysatl.Props.C78_normal",
    "Pysatl.Props.C78_lognormal",
    "Pysatl.Props.C78_exponential",
    "Pysatl.Props.C78_pareto",
    "Pysatl.Props.C78_laplace",
    "Pysatl.Props.C78_discreteUniform",
    "Pysatl.Props.C78_binomial",
    "Pysatl.Props.C78_bernoulli",
    "Pysatl.Props.C78_poisson_partial",
    "Pysatl.Props.C78_geometric_partial",
    "Pysatl.Props.C78_refuted_poisson",
    "Pysatl.Props.C78_refuted_geometric",
    "Pysatl.Props.C78_refuted_constant",
    "Pysatl.Props.C78_refuted_weibull",
    "Pysatl.Props.C78_rayleigh",
    "Pysatl.Props.C78_refuted_wigner",
    "Pysatl.Props.C78_gamma",
    "Pysatl.Props.C78_beta",
    "Pysatl.Props.C78_cauchy_partial",
    "Pysatl.Props.C78_chiSquared_partial",
    "Pysatl.Props.C78_chiSquared_gamma",
    "Pysatl.Props.C78_refuted_chiSquared",
    "Pysatl.Props.C78_refuted_fisher",
    "Pysatl.Props.C78_refuted_student",
    "Pysatl.Props.C78_refuted_cauchy"
   ],
   "note": "True for ten families on samples that are not constant; false for Weibull (wrong equation for the shape), for all-zero Poisson and all-one geometric samples (ValueError) and for constant normal and uniform samples (0 though the likelihood is unbounded). False for Wigner (radius searched only up to 10 above the largest value). The functions that call a scipy fit are right for gamma (the maximum exists for every sample that is not constant), beta and Cauchy if the fit is exact. False for chi-squared, which fits a scale as well and always returns the value of the gamma function; for Fisher, which fits a scale as well; for Student, whose likelihood with free location, scale and degrees of freedom is unbounded on every sample; and for Cauchy when more than half of the observations are equal."
  },
  {
   "property": "C79",
   "status": "partial",
   "theorems": [
    "Pysatl.Props.C79_refuted"
   ],
   "note": "False: it raises on every sample."
  },
  {
   "property": "C80",
   "status": "partial",
   "theorems": [
    "Pysatl.Props.C80_right_partial",
    "Pysatl.Props.C80_plot_partial",
    "Pysatl.Props.C80_weibull_partial",
    "Pysatl.Props.C80_refuted_spp",
    "Pysatl.Props.C80_refuted_hegazyGreen",
    "Pysatl.Props.C80_refuted_kimberMichael",
    "Pysatl.Props.C80_refuted_ppcc",
    "Pysatl.Props.C80_refuted_swrg",
    "Pysatl.Props.C80_refuted_hosking",
    "Pysatl.Props.C80_hosking_nonneg",
    "Pysatl.Props.C80_refuted_two_sided"
   ],
   "note": "False for Hegazy-Green, Kimber-Michael, the stabilised Weibull plot and the gamma probability plot, which reject for small distances, for Rahman-Govindarajulu, which rejects for large correlations, and for the criteria of Hosking, Lilliefors and Spiegelhalter, which are judged two-sided although only large values speak against normality. Proved for the probability plot criteria of normality, Shapiro-Wilk included, and the right-tailed distances."
  },
  {
   "property": "C81",
   "status": "proved",
   "theorems": [
    "Pysatl.Props.C81_wongWong",
    "Pysatl.Props.C81_moran",
    "Pysatl.Props.C81_epstein",
    "Pysatl.Props.C81_lorenz",
    "Pysatl.Props.C81_pietra",
    "Pysatl.Props.C81_deshpande",
    "Pysatl.Props.C81_ahsanullah",
    "Pysatl.Props.C81_hollanderProschan",
    "Pysatl.Props.C81_rossberg",
    "Pysatl.Props.C81_kimberMichael",
    "Pysatl.Props.C81_eppsPulley",
    "Pysatl.Props.C81_frozini",
    "Pysatl.Props.C81_shapiroWilk"
   ],
   "note": ""
  },
  {
   "property": "C82",
   "status": "proved",
   "theorems": [
    "Pysatl.Props.C82_gini"
   ],
   "note": ""
  },
  {
   "property": "C83",
   "status": "partial",
   "theorems": [
    "Pysatl.Props.C83_standard_deviation_partial",
    "Pysatl.Props.C83_refuted"
   ],
   "note": "The replacement for the standard deviation is right; those for the divergence and the integrand are wrong by constant factors."
  },
  {
   "property": "C84",
   "status": "partial",
   "theorems": [
    "Pysatl.Props.C84_impossible_sample_partial",
    "Pysatl.Props.C84_refuted"
   ],
   "note": "False for the five left-tailed criteria: an infinite statistic is the strongest acceptance. Proved for the others."
  },
  {
   "property": "C85",
   "status": "partial",
   "theorems": [
    "Pysatl.Props.C85_tabulated_partial",
    "Pysatl.Props.C85_refuted_supremum",
    "Pysatl.Props.C85_refuted_integral"
   ],
   "note": "False at every level that is not tabulated (supremum) and near 0.05 (integral)."
  },
  {
   "property": "C86",
   "status": "partial",
   "theorems": [
    "Pysatl.Props.C86_partial",
    "Pysatl.Props.C86_refuted"
   ],
   "note": "False for Sherman and Quesenberry-Miller, which are multiplied by d and by d^2; proved for the other statistics."
  },
  {
   "property": "C87",
   "status": "proved",
   "theorems": [
    "Pysatl.Props.C87_neyman",
    "Pysatl.Props.C87_stein",
    "Pysatl.Props.C87_pearson",
    "Pysatl.Props.C87_cvm",
    "Pysatl.Props.C87_ad",
    "Pysatl.Props.C87_watson",
    "Pysatl.Props.C87_uniform_cvm",
    "Pysatl.Props.C87_uniform_ad"
   ],
   "note": "Pearson for a given number of bins. The Watson statistic of the uniform family is a different function (C57_refuted)."
  },
  {
   "property": "C88",
   "status": "partial",
   "theorems": [
    "Pysatl.Props.C88_partial",
    "Pysatl.Props.C88_list",
    "Pysatl.Props.C88_refuted"
   ],
   "note": "False when the marks are a list of zeros: the value is exactly twice the Stein statistic (C88_list). True without marks and for an array of zeros."
  },
  {
   "property": "C89",
   "status": "partial",
   "theorems": [
    "Pysatl.Props.C89_partial",
    "Pysatl.Props.C89_refuted"
   ],
   "note": "False for Pearson with bins=\"auto\" on constant samples (OverflowError). Proved for all others."
  },
  {
   "property": "C90",
   "status": "proved",
   "theorems": [
    "Pysatl.Props.C90_distribution_free",
    "Pysatl.Props.C90_weibull"
   ],
   "note": "For known parameters: the distribution function of the hypothesis is that of the sample."
  },
  {
   "property": "C91",
   "status": "partial",
   "theorems": [
    "Pysatl.Props.C91_edf",
    "Pysatl.Props.C91_student_partial",
    "Pysatl.Props.C91_beta_partial",
    "Pysatl.Props.C91_uniform_partial",
    "Pysatl.Props.C91_refuted_zhangZc",
    "Pysatl.Props.C91_refuted_chi2"
   ],
   "note": "False for the Student statistic Zc and the chi-squared statistic on ties with the bin edges."
  },
  {
   "property": "C92",
   "status": "partial",
   "theorems": [
    "Pysatl.Props.C92_student_partial",
    "Pysatl.Props.C92_refuted_lilliefors",
    "Pysatl.Props.C92_gamma",
    "Pysatl.Props.C92_gamma_lilliefors",
    "Pysatl.Props.C92_weibull"
   ],
   "note": "All gamma classes and all Student classes but Lilliefors, for which it is false. The scale law of scipy.stats.gamma is a hypothesis."
  },
  {
   "property": "C93",
   "status": "partial",
   "theorems": [
    "Pysatl.Props.C93_gamma_partial",
    "Pysatl.Props.C93_student_partial",
    "Pysatl.Props.C93_refuted_ks",
    "Pysatl.Props.C93_refuted_cressieRead",
    "Pysatl.Props.C93_refuted_student"
   ],
   "note": "True for default options; false in general. Gamma and Student families."
  },
  {
   "property": "C94",
   "status": "partial",
   "theorems": [
    "Pysatl.Props.C94_uniform_partial",
    "Pysatl.Props.C94_student_partial",
    "Pysatl.Props.C94_refuted_uniform",
    "Pysatl.Props.C94_refuted_student",
    "Pysatl.Props.C94_normal",
    "Pysatl.Props.zhangA_min"
   ],
   "note": "Z_A is right in the three families; Z_C is right for normality only, Z_K is not."
  },
  {
   "property": "C95",
   "status": "proved",
   "theorems": [
    "Pysatl.Props.C95_range",
    "Pysatl.Props.C95_zero",
    "Pysatl.Props.C95_affine",
    "Pysatl.Props.C95_value"
   ],
   "note": ""
  },
  {
   "property": "C96",
   "status": "partial",
   "theorems": [
    "Pysatl.Props.C96_edf",
    "Pysatl.Props.C96_uniform",
    "Pysatl.Props.C96_beta",
    "Pysatl.Props.C96_gamma",
    "Pysatl.Props.C96_student",
    "Pysatl.Props.C96_weibull",
    "Pysatl.Props.C96_exponential_partial",
    "Pysatl.Props.C96_exponential",
    "Pysatl.Props.C96_normal_partial",
    "Pysatl.Props.C96_normal_edf",
    "Pysatl.Props.C96_refuted_betaEntropy",
    "Pysatl.Props.C96_refuted_normal_pairs",
    "Pysatl.Props.C96_refuted_shapiroWilk"
   ],
   "note": "The statistics of the transformed sample tell samples of every size apart, whatever continuous distribution is hypothesised, and with them those classes of the uniform, beta, gamma, Student and Weibull families; of the exponential family all criteria do, for the parameters of Sighted, which include the defaults (sighted_default); of the criteria of normality the 26 in C96_normal_partial, from the sizes of leastSize on, and the two statistics of the transformed sample. The beta entropy statistic is blind for fewer than four observations, the Shapiro-Wilk criterion of exponentiality and all criteria of normality that ignore location and scale are blind for pairs."
  },
  {
   "property": "C97",
   "status": "partial",
   "theorems": [
    "Pysatl.Props.C97_partial",
    "Pysatl.Props.C97_sb_power",
    "Pysatl.Props.C97_refuted_sb",
    "Pysatl.Props.C97_refuted_ok"
   ],
   "note": "ST1, ST2, Smith-Bain, Tiku-Singh, Lockhart-OReilly-Stephens, MSF, REJG. False for Sb and OK under a change of unit, because of rounded constants; Sb holds under powers. SPP is open: it depends on the optimiser."
  },
  {
   "property": "C98",
   "status": "partial",
   "theorems": [
    "Pysatl.Props.C98_refuted",
    "Pysatl.Props.C98_refuted_bound"
   ],
   "note": "False: plotting positions increase while the fitted probabilities decrease; the value is at least 1/6 for every sample of two or more observations and exceeds the distance for every two."
  },
  {
   "property": "C99",
   "status": "proved",
   "theorems": [
    "Pysatl.Props.C99_weibull",
    "Pysatl.Props.C99_weibull_edf"
   ],
   "note": "The optimiser is a parameter that does not return zero."
  },
  {
   "property": "C100",
   "status": "partial",
   "theorems": [
    "Pysatl.Props.C100_uniform",
    "Pysatl.Props.C100_beta",
    "Pysatl.Props.C100_gamma",
    "Pysatl.Props.C100_gamma_divergence",
    "Pysatl.Props.C100_student",
    "Pysatl.Props.C100_weibull_constant",
    "Pysatl.Props.C100_refuted_weibull",
    "Pysatl.Props.C100_refuted_weibull_pair"
   ],
   "note": "True for the uniform, beta, gamma and Student families (quantile functions assumed non-decreasing). False for Weibull: the value is divided by the sample size and the cells cover only the range of the sample."
  },
  {
   "property": "C101",
   "status": "partial",
   "theorems": [
    "Pysatl.Props.C101_normal_partial",
    "Pysatl.Props.C101_partial",
    "Pysatl.Props.C101_refuted",
    "Pysatl.Props.C101_refuted_mirror",
    "Pysatl.Props.C101_refuted_zhangQ"
   ],
   "note": "38 of the criteria return a number for n >= 8; the medcouple criterion (BHS) never returns for samples of 5 to 16 well separated observations, and for larger samples not on one of the sample and its reflection; ZQ and ZQ* raise IndexError on small samples."
  },
  {
   "property": "C102",
   "status": "partial",
   "theorems": [
    "Pysatl.Props.C102_bontempsMeddahi1",
    "Pysatl.Props.C102_bontempsMeddahi2",
    "Pysatl.Props.C102_cabana1",
    "Pysatl.Props.C102_refuted_cabana2"
   ],
   "note": "True of both Bontemps-Meddahi statistics and of the statistic against asymmetry. False of the statistic against wrong kurtosis: its last term is added twice, and the value exceeds the supremum for the sample -1,-1,1,1."
  },
  {
   "property": "C103",
   "status": "proved",
   "theorems": [
    "Pysatl.Props.C103_eppsPulley",
    "Pysatl.Props.C103_range"
   ],
   "note": "Floats as reals."
  },
  {
   "property": "C104",
   "status": "proved",
   "theorems": [
    "Pysatl.Props.C104_coxOakes",
    "Pysatl.Props.C104_moran"
   ],
   "note": "Floats as reals."
  },
  {
   "property": "C105",
   "status": "partial",
   "theorems": [
    "Pysatl.Props.C105_eppsPulley",
    "Pysatl.Props.C105_moran",
    "Pysatl.Props.C105_coxOakes",
    "Pysatl.Props.C105_atkinson",
    "Pysatl.Props.C105_pietra",
    "Pysatl.Props.C105_refuted_we",
    "Pysatl.Props.C105_we_partial"
   ],
   "note": "True of five statistics. False of WE: np.var divides by n where the formula needs the unbiased variance, so the value is (1-1/n) times the intended one for every sample that is not constant."
  },
  {
   "property": "C106",
   "status": "proved",
   "theorems": [
    "Pysatl.Props.C106_gnedenko",
    "Pysatl.Props.C106_gnedenko_default",
    "Pysatl.Props.C106_harris",
    "Pysatl.Props.C106_harris_default"
   ],
   "note": "Floats as reals; r below the sample size (Harris: 2r below it)."
  },
  {
   "property": "C107",
   "status": "proved",
   "theorems": [
    "Pysatl.Props.C107_deshpande",
    "Pysatl.Props.C107_hollanderProschan",
    "Pysatl.Props.C107_ahsanullah"
   ],
   "note": "Exact expectations for every rate; Ahsanullah is only asymptotically centred."
  },
  {
   "property": "C108",
   "status": "proved",
   "theorems": [
    "Pysatl.Props.C108_frozini",
    "Pysatl.Props.C108_kimberMichael",
    "Pysatl.Props.C108_kochar",
    "Pysatl.Props.C108_kochar_centred",
    "Pysatl.Props.C108_hegazyGreen1",
    "Pysatl.Props.C108_hegazyGreen2",
    "Pysatl.Props.C108_shapiroWilk"
   ],
   "note": "Floats as reals."
  },
  {
   "property": "C109",
   "status": "proved",
   "theorems": [
    "Pysatl.Props.C109_hosking1",
    "Pysatl.Props.C109_trimmed"
   ],
   "note": "Floats as reals; the value where an L-scale is zero or the sample is smaller than r+2t is treated in C110."
  },
  {
   "property": "C110",
   "status": "partial",
   "theorems": [
    "Pysatl.Props.C110_defined_partial",
    "Pysatl.Props.C110_kurtosis_partial",
    "Pysatl.Props.C110_refuted_kurtosis",
    "Pysatl.Props.C110_kurtosis_small",
    "Pysatl.Props.C110_refuted_kurtosis_large",
    "Pysatl.Props.C110_hosking_partial",
    "Pysatl.Props.C110_refuted_hosking",
    "Pysatl.Props.C110_desgagneLafaye_partial",
    "Pysatl.Props.C110_refuted_desgagneLafaye",
    "Pysatl.Props.C110_martinezIglewicz_partial",
    "Pysatl.Props.C110_refuted_martinezIglewicz",
    "Pysatl.Props.C110_refuted_doornikHansen"
   ],
   "note": "True of every other statistic from four observations on, with every quotient, root, logarithm, power and quantile of the code checked. False of the trimmed Hosking statistics (ties, fewer than 4+2t observations), Desgagne-Lafaye (an observation equal to the mean), Martinez-Iglewicz (more than half of the observations equal), Doornik-Hansen (fewer than eight observations), and the kurtosis criterion and DAP (one value of the kurtosis, reached by samples of every size from 35 on, and by none up to 34). numpy scalars give NaN where the model gives an error."
  },
  {
   "property": "C111",
   "status": "partial",
   "theorems": [
    "Pysatl.Props.C111_normal",
    "Pysatl.Props.C111_exponential",
    "Pysatl.Props.C111_uniform",
    "Pysatl.Props.C111_gamma",
    "Pysatl.Props.C111_beta",
    "Pysatl.Props.C111_cauchy",
    "Pysatl.Props.C111_logNormal",
    "Pysatl.Props.C111_locationScale",
    "Pysatl.Props.C111_degreesOfFreedom",
    "Pysatl.Props.C111_gompertz",
    "Pysatl.Props.C111_contaminated",
    "Pysatl.Props.C111_truncNormal_partial",
    "Pysatl.Props.C111_invGauss_partial",
    "Pysatl.Props.C111_weibull_partial",
    "Pysatl.Props.C111_rice_partial",
    "Pysatl.Props.C111_refuted_rice",
    "Pysatl.Props.C111_refuted_truncNormal",
    "Pysatl.Props.C111_refuted_empty"
   ],
   "note": "True of the normal, exponential, uniform, gamma, beta, Cauchy, log-normal, Laplace, logistic, Gumbel, chi-square, Student, Gompertz and contaminated normal generators (Tukey passes its only shape parameter through). False of Rice (centre at distance nu*sigma instead of nu), truncated normal, inverse Gaussian (mean mu*lam) and Weibull (a is an exponent, not the scale); the contaminated normal generators raise on size 0. The standard scipy laws are taken from scipy documentation."
  },
  {
   "property": "C112",
   "status": "partial",
   "theorems": [
    "Pysatl.Props.C112_accepted_partial",
    "Pysatl.Props.C112_refuted"
   ],
   "note": "Holds with an exact condition for uniform, truncated normal and Rice, whose constraints no validator checks; refuted there, and for the default parameters of the inverse Gaussian and Gompertz generators."
  },
  {
   "property": "C113",
   "status": "partial",
   "theorems": [
    "Pysatl.Props.C113_moments_partial",
    "Pysatl.Props.C113_refuted_raw"
   ],
   "note": "Without a centre moment returns the central moment, so moment(a) is always 0."
  },
  {
   "property": "C114",
   "status": "proved",
   "theorems": [
    "Pysatl.Props.C114_filliben",
    "Pysatl.Props.C114_looneyGulledge",
    "Pysatl.Props.C114_ryanJoiner",
    "Pysatl.Props.C114_ryanJoiner_weighted",
    "Pysatl.Props.C114_shapiroFrancia",
    "Pysatl.Props.C114_swrg",
    "Pysatl.Props.C114_shapiroWilk",
    "Pysatl.Props.C114_filliben_range",
    "Pysatl.Props.C114_looneyGulledge_range",
    "Pysatl.Props.C114_ryanJoiner_range",
    "Pysatl.Props.C114_ryanJoiner_weighted_range",
    "Pysatl.Props.C114_shapiroFrancia_range",
    "Pysatl.Props.C114_swrg_plot",
    "Pysatl.Props.C114_shapiroWilk_three",
    "Pysatl.Props.C114_shapiroWilk_range",
    "Pysatl.Props.C114_small"
   ],
   "note": "norm.ppf is the exact quantile function. That the corrections of Royston admit unit weights is proved for every number of observations from four on."
  },
  {
   "property": "C115",
   "status": "partial",
   "theorems": [
    "Pysatl.Props.C115_mirror",
    "Pysatl.Props.C115_ks_sides",
    "Pysatl.Props.C115_zhang",
    "Pysatl.Props.C115_skew",
    "Pysatl.Props.C115_skew_zero",
    "Pysatl.Props.C115_refuted_skew",
    "Pysatl.Props.C115_graph",
    "Pysatl.Props.C115_refuted_clique",
    "Pysatl.Props.C115_refuted_bhs",
    "Pysatl.Props.C115_refuted_cabana1",
    "Pysatl.Props.C115_refuted_cabana2"
   ],
   "note": "Proved of 31 classes for every sample. False of the skewness criterion: its statistic is odd and its tail is the right one, so of two mirror images one can be rejected and the other not (C115_refuted_skew, C115_skew). It also replaces the skewness 0 by a positive number (C115_skew_zero). Q and Q* of Zhang are mirror images of each other (C115_zhang). The graph criteria but the clique number are proved (C115_graph). False of the clique number (C115_refuted_clique, the defect of C52) and of Brys-Hubert-Struyf, which puts the median into the lower half only (C115_refuted_bhs). False of the two Cabana-Cabana statistics (C115_refuted_cabana1, C115_refuted_cabana2)."
  },
  {
   "property": "C116",
   "status": "partial",
   "theorems": [
    "Pysatl.Props.C116_partial",
    "Pysatl.Props.C116_weight",
    "Pysatl.Props.C116_statistic_partial",
    "Pysatl.Props.C116_refuted_ties"
   ],
   "note": "When tied observations share their index the survival function is the product-limit estimate and the statistic is the weighted mean over pairs of uncensored observations (twice it, see C88). False with ties between a censored and an uncensored observation: the value depends on the order in which they are listed."
  },
  {
   "property": "C117",
   "status": "partial",
   "theorems": [
    "Pysatl.Props.C117_jarqueBera",
    "Pysatl.Props.C117_dagostino",
    "Pysatl.Props.C117_dagostino_constants",
    "Pysatl.Props.C117_bonettSeier",
    "Pysatl.Props.C117_gmg",
    "Pysatl.Props.C117_robustJarqueBera",
    "Pysatl.Props.C117_desgagne",
    "Pysatl.Props.C117_chenShapiro",
    "Pysatl.Props.C117_zhangQ",
    "Pysatl.Props.C117_zhangQStar",
    "Pysatl.Props.C117_zhang_straight",
    "Pysatl.Props.C117_coin",
    "Pysatl.Props.C117_bontempsMeddahi",
    "Pysatl.Props.C117_spiegelhalter",
    "Pysatl.Props.C117_spiegelhalter_constant",
    "Pysatl.Props.C117_martinezIglewicz_partial",
    "Pysatl.Props.C117_refuted_martinezIglewicz"
   ],
   "note": "Proved of thirteen criteria. False of Martinez-Iglewicz when an observation is further than nine median absolute deviations from the median: the code does not leave it out. From 150 observations on Spiegelhalter takes n! from the formula of Stirling; the error is bounded."
  },
  {
   "property": "C118",
   "status": "partial",
   "theorems": [
    "Pysatl.Props.C118_skew",
    "Pysatl.Props.C118_skew_order",
    "Pysatl.Props.C118_refuted_skew",
    "Pysatl.Props.C118_doornikHansen",
    "Pysatl.Props.C118_kurtosis",
    "Pysatl.Props.C118_kurtosis_order_partial",
    "Pysatl.Props.C118_refuted_kurtosis",
    "Pysatl.Props.C118_kurtosis_order_small",
    "Pysatl.Props.C118_refuted_kurtosis_large",
    "Pysatl.Props.C118_dap"
   ],
   "note": "The transforms are the published ones. The order fails at skewness 0, which the code replaces by a positive value, and for kurtosis near 1 in samples of 35 or more (at every such size; it holds up to 34), where the cube root changes its sign: a sample with the smallest possible kurtosis gets a larger value than one with an outlier, and the criterion rejects large values."
  },
  {
   "property": "C119",
   "status": "partial",
   "theorems": [
    "Pysatl.Props.C119_moments",
    "Pysatl.Props.C119_shape",
    "Pysatl.Props.C119_shape_three",
    "Pysatl.Props.C119_ratio",
    "Pysatl.Props.C119_entropy",
    "Pysatl.Props.C119_mode",
    "Pysatl.Props.C119_expectation",
    "Pysatl.Props.C119_refuted_standardised"
   ],
   "note": "All constants are those of the beta law and the sample quantities the named ones. The differences of the moment criterion are not both standardised: that of the variances is divided by the standard deviation of an observation, and the expectation of the statistic, proved for every sample size, is below 5/4 instead of 2 for the uniform law."
  },
  {
   "property": "C120",
   "status": "proved",
   "theorems": [
    "Pysatl.Props.C120_integral",
    "Pysatl.Props.C120_minimum",
    "Pysatl.Props.C120_cvm",
    "Pysatl.Props.C120_normal",
    "Pysatl.Props.C120_lognormal",
    "Pysatl.Props.C120_uniform",
    "Pysatl.Props.C120_gamma",
    "Pysatl.Props.C120_beta",
    "Pysatl.Props.C120_student"
   ],
   "note": "The Weibull class raises TypeError (C66) and is left out. The library functions of scipy are the exact distribution functions; for Student any law without bounds."
  },
  {
   "property": "C121",
   "status": "partial",
   "theorems": [
    "Pysatl.Props.C121_invalid_partial",
    "Pysatl.Props.C121_valid",
    "Pysatl.Props.C121_undocumented",
    "Pysatl.Props.C121_refuted_scale",
    "Pysatl.Props.C121_refuted_rate",
    "Pysatl.Props.C121_refuted_mixture",
    "Pysatl.Props.C121_refuted_cdf"
   ],
   "note": "Proved away from the border. False for a scale of exactly zero, which eight functions accept although documented as invalid; for a rate of zero, where the exception is a ZeroDivisionError; for the scale of a contaminated component that is never drawn; and for cdf_norm, pdf_norm and cdf_expon, which return NaN for invalid parameters. Rejections that are not documented: shape 0 of the log-normal, negative nu of Rice, non-positive shapes of the exponentiated Weibull."
  },
  {
   "property": "C122",
   "status": "partial",
   "theorems": [
    "Pysatl.Props.C122_cdf_partial",
    "Pysatl.Props.C122_probability",
    "Pysatl.Props.C122_tukey",
    "Pysatl.Props.C122_mixture",
    "Pysatl.Props.C122_truncnorm",
    "Pysatl.Props.C122_refuted_truncnorm",
    "Pysatl.Props.C122_norm",
    "Pysatl.Props.C122_expon",
    "Pysatl.Props.C122_weibull"
   ],
   "note": "Proved of all functions except the truncated normal with mean other than 0 or variance other than 1, of which it is false: the bounds are read in units of standard deviations from the mean. The standard densities of scipy are taken from its documentation; that they integrate to one is proved."
  },
  {
   "property": "C123",
   "status": "proved",
   "theorems": [
    "Pysatl.Props.C123_normal",
    "Pysatl.Props.C123_level_normal",
    "Pysatl.Props.C123_exponential",
    "Pysatl.Props.C123_level_exponential",
    "Pysatl.Props.C123_lognormal",
    "Pysatl.Props.C123_level_lognormal",
    "Pysatl.Props.C123_level_dagostino",
    "Pysatl.Props.C123_level_regression",
    "Pysatl.Props.C123_no_atoms",
    "Pysatl.Props.C123_level_free",
    "Pysatl.Props.C123_no_atoms_lognormal",
    "Pysatl.Props.C123_level_free_lognormal",
    "Pysatl.Props.C123_no_atoms_exponential",
    "Pysatl.Props.C123_level_free_exponential",
    "Pysatl.Props.C123_level_gini_kochar",
    "Pysatl.Props.C123_refuted_ties",
    "Pysatl.Props.C123_refuted_ks"
   ],
   "note": "The condition on ties is discharged for the 23 normality criteria of leastFree from the given sizes on, also in the log-normal family, and for the 16 exponentiality criteria of Atomless: all scale free ones except the four that count pairs or triples (Ahsanullah, Deshpande, Hollander-Proschan, Rossberg), whose values are finitely many. Without it the bound is false: the Ahsanullah test of two observations exceeds its level. Kolmogorov-Smirnov and Cramer-von Mises for normality, which compare with N(0, 1), do not have the same law for all members."
  },
  {
   "property": "C124",
   "status": "partial",
   "theorems": [
    "Pysatl.Props.C124_smooth",
    "Pysatl.Props.C124_estimators",
    "Pysatl.Props.C124_scores",
    "Pysatl.Props.C124_spacings",
    "Pysatl.Props.C124_liaoShimokawa",
    "Pysatl.Props.C124_kl_partial",
    "Pysatl.Props.C124_rsb_partial",
    "Pysatl.Props.C124_rejg",
    "Pysatl.Props.C124_mahdiDoostparast_partial",
    "Pysatl.Props.C124_laplace_of_log",
    "Pysatl.Props.C124_laplace_partial",
    "Pysatl.Props.C124_refuted_kl",
    "Pysatl.Props.C124_refuted_mahdiDoostparast",
    "Pysatl.Props.C124_refuted_laplace"
   ],
   "note": "True of ST1, ST2, Shapiro-Brain, OK, Tiku-Singh, MSF, LOS, Liao-Shimokawa and REJG. False for Kullback-Leibler with other parameters than a = k = 1, which it ignores; for Mahdi-Doostparast, which compares the distribution function with the empirical survival function; for the Laplace transform criteria, which transform the observations instead of their logarithms; Smith-Bain only for a sorted sample (C61_refuted_rsb). SPP is C98, the chi-squared criterion C100."
  },
  {
   "property": "C125",
   "status": "partial",
   "theorems": [
    "Pysatl.Props.C125_level_uniform",
    "Pysatl.Props.C125_level_weibull",
    "Pysatl.Props.C125_level_normal",
    "Pysatl.Props.C125_level_exponential",
    "Pysatl.Props.C125_level_gamma_partial",
    "Pysatl.Props.C125_level_beta_partial",
    "Pysatl.Props.C125_level_student_partial",
    "Pysatl.Props.C125_level_logNormal_partial",
    "Pysatl.Props.C125_refuted_logNormal",
    "Pysatl.Props.C125_gamma_size",
    "Pysatl.Props.C125_refuted_gamma",
    "Pysatl.Props.C125_refuted_gamma_large",
    "Pysatl.Props.C125_refuted_beta",
    "Pysatl.Props.C125_refuted_student",
    "Pysatl.Props.C125_refuted_single"
   ],
   "note": "True of the uniform, Weibull, normal and exponential families at all parameter values and of the gamma family with shape 1, the beta family with shapes 1 and 1 and the Student family with location 0 and scale 1, for samples of at least one observation (two for Kuiper and Watson). Also true of the log-normal family with scale 1; with any other scale the two-tailed Kolmogorov-Smirnov test rejects data of the hypothesised law with probability tending to one, because the samples are simulated with scale 1. False for the gamma family with another shape: the generator is called without it; at shape 1/2 the test at level 1/100 rejects a true hypothesis with probability at least 1/10. For gamma with any other shape than 1, beta with any other shapes than 1 and 1 and Student with a location or a scale, the two-tailed Kolmogorov-Smirnov test rejects true hypotheses with probability tending to one. False for Kuiper and Watson with one observation: they are constant and always reject."
  },
  {
   "property": "C126",
   "status": "partial",
   "theorems": [
    "Pysatl.Props.C126_level_uniform",
    "Pysatl.Props.C126_level_weibull",
    "Pysatl.Props.C126_level_normal",
    "Pysatl.Props.C126_level_exponential",
    "Pysatl.Props.C126_level_gamma_partial",
    "Pysatl.Props.C126_level_beta_partial",
    "Pysatl.Props.C126_level_student_partial",
    "Pysatl.Props.C126_level_logNormal_partial",
    "Pysatl.Props.C125_refuted_logNormal",
    "Pysatl.Props.C125_refuted_gamma_large",
    "Pysatl.Props.C125_refuted_beta",
    "Pysatl.Props.C125_refuted_student",
    "Pysatl.Props.C126_normal",
    "Pysatl.Props.C126_exponential",
    "Pysatl.Props.C126_lognormal",
    "Pysatl.Props.C126_dagostino",
    "Pysatl.Props.C126_free",
    "Pysatl.Props.C126_free_lognormal",
    "Pysatl.Props.C126_free_exponential",
    "Pysatl.Props.C126_gini_kochar",
    "Pysatl.Props.C126_refuted_ties"
   ],
   "note": "True of the completely specified uniform, Weibull, normal and exponential hypotheses at all parameter values and of gamma with shape 1, beta with shapes 1 and 1, Student with location 0 and scale 1, log-normal with scale 1, and of the location and scale free criteria of the normal, exponential and log-normal families whose statistic takes no value with positive probability (shown for the 23 normality criteria of leastFree, also as criteria of log-normality, and for the 16 exponentiality criteria of Atomless). False for statistics with ties, since repeated simulated values count once (Ahsanullah), and for gamma, beta, Student and log-normal hypotheses other than the simulated law, whose true hypotheses are rejected with probability tending to one by both procedures (C125_refuted_gamma_large and the theorems beside it)."
  },
  {
   "property": "C127",
   "status": "partial",
   "theorems": [
    "Pysatl.Props.C127_bounds_partial",
    "Pysatl.Props.C127_range",
    "Pysatl.Props.C127_order",
    "Pysatl.Props.C127_permutation",
    "Pysatl.Props.C127_monotone_evidence",
    "Pysatl.Props.C127_holm_le_bonferroni",
    "Pysatl.Props.C127_bonferroni_fwer",
    "Pysatl.Props.C127_refuted_sidak",
    "Pysatl.Props.C127_refuted_sidak_single",
    "Pysatl.Props.C127_refuted_sidak_fwer"
   ],
   "note": "All proved for Bonferroni, Holm and Benjamini-Yekutieli; for the two Sidak procedures all except the lower bound, which is false: a p-value below 2^-54 gets the adjusted value 0 and is rejected at every positive threshold. Infinities and NaN are not modelled (no operation on valid input produces them)."
  },
  {
   "property": "C128",
   "status": "partial",
   "theorems": [
    "Pysatl.Props.C128_p_value",
    "Pysatl.Props.C128_decision_partial",
    "Pysatl.Props.C128_refuted_right"
   ],
   "note": "Never rejects when the exact fraction is above the level and always when it is below; at equality it rejects for left-tailed criteria. False at equality for right-tailed ones: with the default 10000 simulated values, 500 of them beyond the statistic and level 0.05, 1 - 0.95 is larger than 0.05 in double precision and the test does not reject."
  },
  {
   "property": "C129",
   "status": "partial",
   "theorems": [
    "Pysatl.Props.C129_lognormal",
    "Pysatl.Props.C129_exponential",
    "Pysatl.Props.C129_weibull",
    "Pysatl.Props.C129_gamma",
    "Pysatl.Props.C129_beta",
    "Pysatl.Props.C129_chiSquared",
    "Pysatl.Props.C129_fisher",
    "Pysatl.Props.C129_rayleigh",
    "Pysatl.Props.C129_pareto",
    "Pysatl.Props.C129_bernoulli",
    "Pysatl.Props.C129_binomial",
    "Pysatl.Props.C129_poisson",
    "Pysatl.Props.C129_geometric",
    "Pysatl.Props.C129_refuted_discreteUniform"
   ],
   "note": "Proved for every family but one (Rayleigh for negative observations; an observation of exactly 0 needs minus infinity, which is not modelled). False for the discrete uniform: any sample with a number that is not whole gets a positive likelihood."
  },
  {
   "property": "C130",
   "status": "partial",
   "theorems": [
    "Pysatl.Props.C130_bernoulli",
    "Pysatl.Props.C130_geometric",
    "Pysatl.Props.C130_discreteUniform",
    "Pysatl.Props.C130_refuted_poisson",
    "Pysatl.Props.C130_refuted_binomial"
   ],
   "note": "Proved for Bernoulli, geometric and discrete uniform. False for Poisson and binomial: math.factorial and math.comb raise TypeError for every float, so every non-degenerate sample raises."
  },
  {
   "property": "C131",
   "status": "partial",
   "theorems": [
    "Pysatl.Props.C131_reports_partial",
    "Pysatl.Props.C131_student_partial",
    "Pysatl.Props.C131_refuted_ryanJoiner",
    "Pysatl.Props.C131_refuted_student"
   ],
   "note": "Holds for all classes but the Ryan-Joiner criterion of normality, whose hypothesis() is an AttributeError so that no reference distribution can be resolved for it, and the Student family, which reports the degrees of freedom but not location and scale."
  },
  {
   "property": "C132",
   "status": "partial",
   "theorems": [
    "Pysatl.Props.C132_accepts_partial",
    "Pysatl.Props.C132_mode",
    "Pysatl.Props.C132_refuted"
   ],
   "note": "Holds for the beta, gamma, log-normal, Student and uniform families (mode criterion: parameters above 1, as documented; Lilliefors-Student takes no location and scale); normal, exponential and Weibull criteria accept every number."
  },
  {
   "property": "C133",
   "status": "proved",
   "theorems": [
    "Pysatl.Props.C133_uniform",
    "Pysatl.Props.C133_normal",
    "Pysatl.Props.C133_lognormal",
    "Pysatl.Props.C133_exponential",
    "Pysatl.Props.C133_gamma",
    "Pysatl.Props.C133_beta",
    "Pysatl.Props.C133_cauchy",
    "Pysatl.Props.C133_student",
    "Pysatl.Props.C133_fisher",
    "Pysatl.Props.C133_wigner",
    "Pysatl.Props.C133_pareto",
    "Pysatl.Props.C133_laplace"
   ],
   "note": "Real arithmetic; the numerical fits of scipy are arbitrary functions."
  },
  {
   "property": "C134",
   "status": "partial",
   "theorems": [
    "Pysatl.Props.C134_skew",
    "Pysatl.Props.C134_jarqueBera",
    "Pysatl.Props.C134_gmg",
    "Pysatl.Props.C134_robustJarqueBera",
    "Pysatl.Props.C134_bontempsMeddahi1",
    "Pysatl.Props.C134_kurtosis",
    "Pysatl.Props.C134_refuted_kurtosis",
    "Pysatl.Props.C134_refuted_dap",
    "Pysatl.Props.C134_martinezIglewicz_limit",
    "Pysatl.Props.C134_refuted_martinezIglewicz"
   ],
   "note": "Proved for the skewness criterion (8 observations or more), Jarque-Bera, robust Jarque-Bera and the first Bontemps-Meddahi statistic (9 or more), Gel-Miao-Gastwirth (4 or more) and the kurtosis criterion (9 to 34 observations). False of the kurtosis criterion and the D'Agostino-Pearson statistic from 35 observations on: the transform has a pole within reach and the values are not bounded. False of Martinez-Iglewicz: the biweight sums (lines 1331-1333) run over all observations instead of those within nine median deviations, so the statistic tends to 25/(n(n-1)) as an observation moves away. The other criteria are not covered."
  },
  {
   "property": "C135",
   "status": "partial",
   "theorems": [
    "Pysatl.Props.C135_uniform",
    "Pysatl.Props.C135_uniform_right",
    "Pysatl.Props.C135_weibull",
    "Pysatl.Props.C135_exponential_cvm",
    "Pysatl.Props.C135_normal_partial",
    "Pysatl.Props.C135_exponential_ks_partial",
    "Pysatl.Props.C135_gamma_partial",
    "Pysatl.Props.C135_student_partial",
    "Pysatl.Props.C135_beta_partial",
    "Pysatl.Props.C135_logNormal_partial",
    "Pysatl.Props.C135_refuted_logNormal",
    "Pysatl.Props.C135_refuted_ks_left",
    "Pysatl.Props.C135_refuted_gamma",
    "Pysatl.Props.C135_refuted_beta",
    "Pysatl.Props.C135_refuted_student",
    "Pysatl.Props.C135_refuted_normal",
    "Pysatl.Props.C135_refuted_exponential"
   ],
   "note": "Holds for the uniform and Weibull families, Cramer-von Mises for exponentiality, and in the other families for the parameters with which the reference values are simulated. False of the one-sided Kolmogorov-Smirnov criterion D-, whose large values are judged in the left tail (its power tends to zero), of gamma hypotheses of shape other than one, of log-normal hypotheses of scale other than one, of beta hypotheses other than the uniform law, of Student hypotheses with a location or a scale, and of normal hypotheses N(m, v) with m nonzero, for which N(-m, v) is never detected, and of Kolmogorov-Smirnov for exponential hypotheses with a rate other than one. Criteria with estimated parameters and criteria not built on the empirical distribution function are not covered; families with a support are proved for laws on its interior."
  },
  {
   "property": "C136",
   "status": "partial",
   "theorems": [
    "Pysatl.Props.C136_coxOakes",
    "Pysatl.Props.C136_pietra",
    "Pysatl.Props.C136_atkinson",
    "Pysatl.Props.C136_eppsPulley_partial",
    "Pysatl.Props.C136_moran_partial",
    "Pysatl.Props.C136_we_partial",
    "Pysatl.Props.C136_shapiroWilk_partial",
    "Pysatl.Props.C136_refuted_eppsPulley",
    "Pysatl.Props.C136_refuted_moran",
    "Pysatl.Props.C136_refuted_we",
    "Pysatl.Props.C136_refuted_shapiroWilk",
    "Pysatl.Props.C136_gini",
    "Pysatl.Props.C136_deshpande_partial",
    "Pysatl.Props.C136_hollanderProschan_partial",
    "Pysatl.Props.C136_ahsanullah_partial",
    "Pysatl.Props.C136_refuted_deshpande",
    "Pysatl.Props.C136_refuted_hollanderProschan",
    "Pysatl.Props.C136_refuted_ahsanullah",
    "Pysatl.Props.C136_kochar_partial",
    "Pysatl.Props.C136_refuted_kochar",
    "Pysatl.Props.C136_refuted_wongWong",
    "Pysatl.Props.C136_lorenz_partial",
    "Pysatl.Props.C136_refuted_lorenz",
    "Pysatl.Props.C136_gnedenko_partial",
    "Pysatl.Props.C136_refuted_gnedenko",
    "Pysatl.Props.C136_harris_partial",
    "Pysatl.Props.C136_refuted_harris",
    "Pysatl.Props.C136_rossberg_partial",
    "Pysatl.Props.C136_refuted_rossberg"
   ],
   "note": "Proved for the two-tailed criteria of Cox and Oakes and of Pietra and for Atkinson. Epps-Pulley, Moran, WE (right-tailed) and Shapiro-Wilk (left-tailed) detect one side only: for a law on the other side the probability of rejection tends to zero; uniform observations are never detected by Epps-Pulley, WE and Shapiro-Wilk, squares of exponential variables never by Moran. Gini is proved; the counts of Deshpande, Hollander and Proschan and Ahsanullah (right-tailed) detect one side only: Hollander and Proschan never detect laws for which new is better than used, Ahsanullah never those for which new is worse than used, Deshpande never Weibull laws with shape below 1. Kochar (right-tailed) is proved for continuous laws on one side and never detects those on the other, such as squares of exponential variables; Wong and Wong never detect a law on an interval that keeps away from zero. Lorenz (right-tailed) is proved, at every level p, for continuous laws whose lowest part has a larger share in the total than that of the exponential laws, and never detects those with a smaller share, such as squares of exponential variables. Gnedenko and Harris (right-tailed, default splits) detect the laws for which more than half of the expected lifetime is spent before the median, or less than half between the quartiles, and never those on the other side. Rossberg (right-tailed) detects laws for which new is better than used and never those for which new is worse than used. Epstein is not covered."
  },
  {
   "property": "C137",
   "status": "partial",
   "theorems": [
    "Pysatl.Props.C137_jarqueBera",
    "Pysatl.Props.C137_dap",
    "Pysatl.Props.C137_doornikHansen",
    "Pysatl.Props.C137_bontempsMeddahi1",
    "Pysatl.Props.C137_bontempsMeddahi2",
    "Pysatl.Props.C137_robustJarqueBera",
    "Pysatl.Props.C137_bonettSeier",
    "Pysatl.Props.C137_lilliefors",
    "Pysatl.Props.C137_skew_partial",
    "Pysatl.Props.C137_kurtosis_partial",
    "Pysatl.Props.C137_refuted_skew",
    "Pysatl.Props.C137_refuted_kurtosis",
    "Pysatl.Props.C137_eppsPulley",
    "Pysatl.Props.C137_dagostino",
    "Pysatl.Props.C137_gmg_partial",
    "Pysatl.Props.C137_refuted_gmg",
    "Pysatl.Props.C137_looneyGulledge",
    "Pysatl.Props.C137_ryanJoiner",
    "Pysatl.Props.C137_shapiroFrancia",
    "Pysatl.Props.C137_filliben",
    "Pysatl.Props.C137_spiegelhalter",
    "Pysatl.Props.C137_martinezIglewicz_partial",
    "Pysatl.Props.C137_refuted_martinezIglewicz",
    "Pysatl.Props.C137_hosking1",
    "Pysatl.Props.C137_hosking_trimmed",
    "Pysatl.Props.C137_desgagneLafaye_partial"
   ],
   "note": "Proved for Jarque-Bera, D'Agostino-Pearson, Doornik-Hansen, both Bontemps-Meddahi statistics, robust Jarque-Bera, Bonett-Seier, and for Lilliefors against every law with finite variance that is not normal. The classes of the sample skewness and the sample kurtosis are judged in the right tail only: laws of negative skewness, and laws of kurtosis between 5/3 and 3 (uniform observations), are rejected with a probability that tends to zero. Proved too for Epps and Pulley against every law with finite variance that is not normal, and for D'Agostino; Gel-Miao-Gastwirth (right-tailed) never detects uniform observations. Looney-Gulledge, Ryan-Joiner (every option), Shapiro-Francia and Filliben detect every continuous law with finite variance that is not normal. Spiegelhalter detects every law for which the larger of the two ratios is not sqrt(pi/2). Martinez-Iglewicz (right-tailed, tenth moments) detects the laws whose index exceeds that of the normal laws and never the others, for instance a law with one gross error in fifteen, since the sums include the observations beyond the cut-off. Hosking's four statistics (L-moments, and L-moments with one, two and three observations trimmed) detect every continuous law with a mean whose combination of L-skewness and L-kurtosis is not that of the normal law. Desgagne and Lafaye de Micheaux (right-tailed) detect every law with a third moment whose scores are longer than those of the normal law."
  },
  {
   "property": "C138",
   "status": "partial",
   "theorems": [
    "Pysatl.Props.C138_skew",
    "Pysatl.Props.C138_kurtosis",
    "Pysatl.Props.C138_jarqueBera",
    "Pysatl.Props.C138_dap",
    "Pysatl.Props.C138_bontempsMeddahi1",
    "Pysatl.Props.C138_bontempsMeddahi2",
    "Pysatl.Props.C138_doornikHansen",
    "Pysatl.Props.C138_eppsPulley",
    "Pysatl.Props.C138_level",
    "Pysatl.Props.C138_refuted_bonettSeier",
    "Pysatl.Props.C138_refuted_dagostino",
    "Pysatl.Props.C138_refuted_robustJarqueBera"
   ],
   "note": "Proved for the sample skewness, the sample kurtosis, Jarque-Bera, D'Agostino-Pearson, Doornik-Hansen, both Bontemps-Meddahi criteria and, under exponentiality, Epps-Pulley. False of Bonett-Seier (13.29 log sqrt(pi/2) is 3.0008, not 3) and of D'Agostino (0.28209479 is below 1/(2 sqrt pi)): the rounded constants let the value of large normal samples exceed every bound. False of robust Jarque-Bera: the variance of its second term is 72 pi - 168 = 58.2, the code divides by 64."
  },
  {
   "property": "C139",
   "status": "partial",
   "theorems": [
    "Pysatl.Props.C139_finite",
    "Pysatl.Props.C139_simulated",
    "Pysatl.Props.C139_level",
    "Pysatl.Props.C139_infinite",
    "Pysatl.Props.C139_infinite_neg",
    "Pysatl.Props.C139_multiple",
    "Pysatl.Props.C139_left_partial",
    "Pysatl.Props.C139_refuted_critical",
    "Pysatl.Props.C139_refuted_pvalue",
    "Pysatl.Props.C139_refuted_jarqueBera"
   ],
   "note": "Proved for simulated values, levels, p-values and infinite statistics. False for a statistic that is NaN: the critical-value method (reject unless the value is inside the area) rejects under every alternative at every level, the p-value method under the right and the two-sided alternative (p-value 0); under the left one its p-value is 1. It occurs: Jarque-Bera of a sample of equal values."
  },
  {
   "property": "C140",
   "status": "partial",
   "theorems": [
    "Pysatl.Props.C140_adjust_partial",
    "Pysatl.Props.C140_refuted"
   ],
   "note": "Holds for Bonferroni and Sidak; Holm, Sidak-Holm and Benjamini-Yekutieli never raise and return negative adjusted values for negative input."
  },
  {
   "property": "C141",
   "status": "partial",
   "theorems": [
    "Pysatl.Props.C141_table",
    "Pysatl.Props.C141_failed_unchanged",
    "Pysatl.Props.C141_unfinished_unchanged",
    "Pysatl.Props.C141_serial_partial",
    "Pysatl.Props.C141_owned_partial",
    "Pysatl.Props.C141_refuted_insert",
    "Pysatl.Props.C141_refuted_update",
    "Pysatl.Props.C141_refuted_serial",
    "Pysatl.Props.C141_refuted_batch"
   ],
   "note": "Proved: no key twice and every row readable under every schedule; failed or interrupted calls leave no trace; the successful calls are those of the serial order of completion when the distributions addressed by a deletion belong to one experiment and the keys of a batch (but for the last) are left alone by other processes; no interference when every key has one writing process. False: two concurrent insertions of a new key (one fails with an integrity error), an insertion during a deletion (stale data error, results lost), and a deletion during the insertion of another experiment (no serial order), and a batch whose first distribution is already stored and replaced by another process meanwhile (no serial order)."
  },
  {
   "property": "C142",
   "status": "proved",
   "theorems": [
    "Pysatl.Props.C142_init",
    "Pysatl.Props.C142_create_safe",
    "Pysatl.Props.C142_again"
   ],
   "note": ""
  },
  {
   "property": "C143",
   "status": "proved",
   "theorems": [
    "Pysatl.Props.C143_ks",
    "Pysatl.Props.C143_kuiper",
    "Pysatl.Props.C143_cvm"
   ],
   "note": "Pow and integer conversions exact below 2^53; the distribution function is any function within eps of the exact one on the sample."
  },
  {
   "property": "C144",
   "status": "partial",
   "theorems": [
    "Pysatl.Props.C144_refuted",
    "Pysatl.Props.C144_variance_partial",
    "Pysatl.Props.C144_partial"
   ],
   "note": "False of the code: the one-pass variance of 0,0,2,2 shifted by 1757700000 is negative for every rounding of ties, and math.sqrt raises. Proved: the computed variance is within n 2^-48 M^2, and both criteria give a number when the variance is at least n 2^-47 M^2."
  },
  {
   "property": "C145",
   "status": "proved",
   "theorems": [
    "Pysatl.Props.C145_range",
    "Pysatl.Props.C145_monotone",
    "Pysatl.Props.C145_error",
    "Pysatl.Props.C145_decision"
   ],
   "note": "np.quantile is modelled as numpy computes it (virtual index, floor, the two formulas of _lerp), every operation rounded; nothing is assumed of how ties are resolved. The bound 2^899 keeps differences from overflowing."
  },
  {
   "property": "C146",
   "status": "proved",
   "theorems": [
    "Pysatl.Props.C146_ks",
    "Pysatl.Props.C146_kuiper",
    "Pysatl.Props.C146_cvm",
    "Pysatl.Props.C146_recorded",
    "Pysatl.Props.C146_recorded_cvm"
   ],
   "note": "Fully specified distribution functions; the bounds are attained (examples beside the theorems)."
  },
  {
   "property": "C147",
   "status": "partial",
   "theorems": [
    "Pysatl.Props.C147_frozini",
    "Pysatl.Props.C147_refuted_kimberMichael",
    "Pysatl.Props.C147_refuted_hegazyGreen"
   ],
   "note": "Proved for Frozini. Kimber-Michael and both Hegazy-Green criteria are judged in the left tail: every such law is rejected with a probability that tends to zero."
  },
  {
   "property": "C148",
   "status": "proved",
   "theorems": [
    "Pysatl.Props.C148_power",
    "Pysatl.Props.C148_detects",
    "Pysatl.Props.C148_every_law",
    "Pysatl.Props.C148_moments",
    "Pysatl.Props.C148_inherits_tails",
    "Pysatl.Props.C148_values",
    "Pysatl.Props.C148_limit_laws",
    "Pysatl.Props.C148_level"
   ],
   "note": "The equality holds for every criterion from which the module makes a class. A sample with a non-positive observation, for which the class returns infinity, has probability zero under the laws considered (see C84)."
  },
  {
   "property": "C149",
   "status": "proved",
   "theorems": [
    "Pysatl.Props.C149_normal",
    "Pysatl.Props.C149_reversed",
    "Pysatl.Props.C149_exponential",
    "Pysatl.Props.C149_lognormal"
   ],
   "note": "Equality of the probabilities for every law of the data. For the Atkinson criterion the exponent (0.99 in the test) is not zero, for which it is not defined."
  },
  {
   "property": "C150",
   "status": "proved",
   "theorems": [
    "Pysatl.Props.C150_normal",
    "Pysatl.Props.C150_exponential",
    "Pysatl.Props.C150_logNormal",
    "Pysatl.Props.C150_gamma",
    "Pysatl.Props.C150_student"
   ],
   "note": "Limits of the rejection probabilities of both decision procedures. If the two distances are equal nothing is claimed."
  }
 ]
}