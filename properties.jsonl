{"id": "C01", "title": "p-value validation", "statement": "For each of the five correction procedures, test(p_values, threshold) raises ValueError exactly when some p-value lies outside [0,1]; on every other list, the empty one included, it returns a pair of lists.", "quantifier": "every list of p-values of any length, every threshold, each of the five procedures", "why_tests_cant": "The set of lists is infinite; a test tries a few bad positions, not every position, length and boundary value.", "anchors": ["src/pysatl_criterion/hypothesis_testing/multiple_testing/abstract_multiple_testing.py::AbstractMultipleTesting.test", "src/pysatl_criterion/hypothesis_testing/multiple_testing/fwer.py::BonferroniMultipleTesting.adjust", "src/pysatl_criterion/hypothesis_testing/multiple_testing/fwer.py::SidakMultipleTesting.adjust", "src/pysatl_criterion/hypothesis_testing/multiple_testing/fwer.py::Holm.adjust", "src/pysatl_criterion/hypothesis_testing/multiple_testing/fwer.py::SidakHolm.adjust", "src/pysatl_criterion/hypothesis_testing/multiple_testing/fdr.py::BenjaminiYekutieli.adjust", "src/pysatl_criterion/hypothesis_testing/multiple_testing/abstract_multiple_testing.py::AbstractMultipleTesting._validate_p_values"]}
{"id": "C02", "title": "shape of the result and the rejection rule", "statement": "The two lists returned by test have exactly the length of the input, position i of each refers to p_values[i], and rejected[i] is True exactly when adjusted[i] < threshold (strictly). Hence raising the threshold never un-rejects a hypothesis.", "quantifier": "every list of p-values, every threshold, each of the five procedures", "why_tests_cant": "Alignment of output positions after sorting by index must hold for every ordering of the input.", "anchors": ["src/pysatl_criterion/hypothesis_testing/multiple_testing/abstract_multiple_testing.py::AbstractMultipleTesting.test", "src/pysatl_criterion/hypothesis_testing/multiple_testing/fwer.py::BonferroniMultipleTesting.adjust", "src/pysatl_criterion/hypothesis_testing/multiple_testing/fwer.py::SidakMultipleTesting.adjust", "src/pysatl_criterion/hypothesis_testing/multiple_testing/fwer.py::Holm.adjust", "src/pysatl_criterion/hypothesis_testing/multiple_testing/fwer.py::SidakHolm.adjust", "src/pysatl_criterion/hypothesis_testing/multiple_testing/fdr.py::BenjaminiYekutieli.adjust"]}
{"id": "C03", "title": "adjusted p-values lie between the raw p-value and 1", "statement": "On valid input every adjusted p-value is at least the raw p-value at the same position and at most 1.", "quantifier": "every list of p-values in [0,1], each of the five procedures", "why_tests_cant": "A bound on all real vectors of all lengths.", "anchors": ["src/pysatl_criterion/hypothesis_testing/multiple_testing/fwer.py::BonferroniMultipleTesting.adjust", "src/pysatl_criterion/hypothesis_testing/multiple_testing/fwer.py::SidakMultipleTesting.adjust", "src/pysatl_criterion/hypothesis_testing/multiple_testing/fwer.py::Holm.adjust", "src/pysatl_criterion/hypothesis_testing/multiple_testing/fwer.py::SidakHolm.adjust", "src/pysatl_criterion/hypothesis_testing/multiple_testing/fdr.py::BenjaminiYekutieli.adjust"]}
{"id": "C04", "title": "correction preserves the order of p-values", "statement": "If p_values[i] <= p_values[j] then adjusted[i] <= adjusted[j]; in particular tied p-values get equal adjusted values, and a hypothesis with a smaller p-value is never kept while one with a larger p-value is rejected.", "quantifier": "every list of p-values in [0,1], all positions i and j, each of the five procedures", "why_tests_cant": "Ties and arbitrary orders interact with the running minimum over sorted indices.", "anchors": ["src/pysatl_criterion/hypothesis_testing/multiple_testing/fwer.py::BonferroniMultipleTesting.adjust", "src/pysatl_criterion/hypothesis_testing/multiple_testing/fwer.py::SidakMultipleTesting.adjust", "src/pysatl_criterion/hypothesis_testing/multiple_testing/fwer.py::Holm.adjust", "src/pysatl_criterion/hypothesis_testing/multiple_testing/fwer.py::SidakHolm.adjust", "src/pysatl_criterion/hypothesis_testing/multiple_testing/fdr.py::BenjaminiYekutieli.adjust"]}
{"id": "C05", "title": "correction does not depend on the order in which hypotheses are listed", "statement": "Permuting the input p-values permutes the adjusted p-values (and rejections) in the same way.", "quantifier": "every list of p-values in [0,1], every permutation, each of the five procedures", "why_tests_cant": "n! permutations for every n.", "anchors": ["src/pysatl_criterion/hypothesis_testing/multiple_testing/fwer.py::BonferroniMultipleTesting.adjust", "src/pysatl_criterion/hypothesis_testing/multiple_testing/fwer.py::SidakMultipleTesting.adjust", "src/pysatl_criterion/hypothesis_testing/multiple_testing/fwer.py::Holm.adjust", "src/pysatl_criterion/hypothesis_testing/multiple_testing/fwer.py::SidakHolm.adjust", "src/pysatl_criterion/hypothesis_testing/multiple_testing/fdr.py::BenjaminiYekutieli.adjust"]}
{"id": "C06", "title": "correction is monotone in the evidence", "statement": "If every p-value is replaced by one at least as large, no adjusted p-value decreases, so no new hypothesis is rejected.", "quantifier": "every pair of valid lists of equal length, componentwise ordered, each of the five procedures", "why_tests_cant": "Raising one p-value can change the ranks of all the others.", "anchors": ["src/pysatl_criterion/hypothesis_testing/multiple_testing/fwer.py::BonferroniMultipleTesting.adjust", "src/pysatl_criterion/hypothesis_testing/multiple_testing/fwer.py::SidakMultipleTesting.adjust", "src/pysatl_criterion/hypothesis_testing/multiple_testing/fwer.py::Holm.adjust", "src/pysatl_criterion/hypothesis_testing/multiple_testing/fwer.py::SidakHolm.adjust", "src/pysatl_criterion/hypothesis_testing/multiple_testing/fdr.py::BenjaminiYekutieli.adjust"]}
{"id": "C07", "title": "Bonferroni controls the family-wise error rate", "statement": "Whatever the joint distribution of the p-values, if each p-value of a true null is super-uniform then the probability that BonferroniMultipleTesting.test rejects at least one true null at threshold alpha is at most alpha.", "quantifier": "every probability space, every number of hypotheses, every set of true nulls, every joint distribution, every alpha in [0,1]", "why_tests_cant": "A statement about all joint distributions; simulation only samples a few.", "anchors": ["src/pysatl_criterion/hypothesis_testing/multiple_testing/abstract_multiple_testing.py::AbstractMultipleTesting.test", "src/pysatl_criterion/hypothesis_testing/multiple_testing/fwer.py::BonferroniMultipleTesting.adjust"]}
{"id": "C08", "title": "Sidak controls the family-wise error rate under independence", "statement": "If the p-values are independent and super-uniform under the nulls, SidakMultipleTesting.test rejects some true null with probability at most alpha.", "quantifier": "every probability space, every family of independent p-values, every alpha in [0,1]", "why_tests_cant": "A statement about all product distributions.", "anchors": ["src/pysatl_criterion/hypothesis_testing/multiple_testing/abstract_multiple_testing.py::AbstractMultipleTesting.test", "src/pysatl_criterion/hypothesis_testing/multiple_testing/fwer.py::SidakMultipleTesting.adjust"]}
{"id": "C09", "title": "Sidak is never more conservative than Bonferroni", "statement": "Every Sidak-adjusted p-value is at most the Bonferroni-adjusted one, so every hypothesis rejected by Bonferroni is rejected by Sidak.", "quantifier": "every list of p-values in [0,1]", "why_tests_cant": "An inequality over all vectors and all m.", "anchors": ["src/pysatl_criterion/hypothesis_testing/multiple_testing/fwer.py::BonferroniMultipleTesting.adjust", "src/pysatl_criterion/hypothesis_testing/multiple_testing/fwer.py::SidakMultipleTesting.adjust"]}
{"id": "C10", "title": "Holm returns the step-down Holm adjustment", "statement": "Holm.adjust returns, for each hypothesis, the running maximum over smaller-or-equal p-values of min(1, (n - number of strictly smaller p-values) * p).", "quantifier": "every list of p-values in [0,1]", "why_tests_cant": "Example vectors on which running minimum and running maximum coincide do pass.", "anchors": ["src/pysatl_criterion/hypothesis_testing/multiple_testing/fwer.py::Holm.adjust"]}
{"id": "C11", "title": "Holm controls the family-wise error rate under any dependence", "statement": "Whatever the joint distribution of the p-values, Holm.test rejects some true null with probability at most alpha.", "quantifier": "every probability space, every set of true nulls, every alpha in [0,1]", "why_tests_cant": "A statement about all joint distributions.", "anchors": ["src/pysatl_criterion/hypothesis_testing/multiple_testing/abstract_multiple_testing.py::AbstractMultipleTesting.test", "src/pysatl_criterion/hypothesis_testing/multiple_testing/fwer.py::Holm.adjust"]}
{"id": "C12", "title": "Holm rejects at least what Bonferroni rejects", "statement": "Every Holm-adjusted p-value is at most the Bonferroni-adjusted one; rejections of Bonferroni are contained in those of Holm.", "quantifier": "every list of p-values in [0,1], every threshold", "why_tests_cant": "An inequality over all vectors.", "anchors": ["src/pysatl_criterion/hypothesis_testing/multiple_testing/fwer.py::BonferroniMultipleTesting.adjust", "src/pysatl_criterion/hypothesis_testing/multiple_testing/fwer.py::Holm.adjust"]}
{"id": "C13", "title": "SidakHolm returns the step-down Holm-Sidak adjustment", "statement": "SidakHolm.adjust returns, for each hypothesis, the running maximum over smaller-or-equal p-values of 1-(1-p)^(n - number of strictly smaller p-values).", "quantifier": "every list of p-values in [0,1]", "why_tests_cant": "Only vectors with more than one distinct p-value reveal the difference.", "anchors": ["src/pysatl_criterion/hypothesis_testing/multiple_testing/fwer.py::SidakHolm.adjust"]}
{"id": "C14", "title": "Benjamini-Yekutieli returns the textbook adjustment", "statement": "For up to 10000 hypotheses BenjaminiYekutieli.adjust returns for hypothesis i the minimum over all j with p_j >= p_i of min(1, n*H_n*p_j / number of p-values <= p_j), H_n the harmonic number.", "quantifier": "every list of at most 10000 p-values", "why_tests_cant": "All vectors, all tie patterns.", "anchors": ["src/pysatl_criterion/hypothesis_testing/multiple_testing/fdr.py::BenjaminiYekutieli.adjust"]}
{"id": "C15", "title": "Benjamini-Yekutieli controls the false discovery rate under any dependence", "statement": "If the p-values of true nulls are super-uniform then, whatever their joint distribution, the expected proportion of false rejections of BenjaminiYekutieli.test at threshold alpha is at most alpha times the fraction of true nulls.", "quantifier": "every probability space, every n, every set of true nulls, every joint distribution, every alpha in [0,1]", "why_tests_cant": "A statement about all joint distributions.", "anchors": ["src/pysatl_criterion/hypothesis_testing/multiple_testing/abstract_multiple_testing.py::AbstractMultipleTesting.test", "src/pysatl_criterion/hypothesis_testing/multiple_testing/fdr.py::BenjaminiYekutieli.adjust"]}
{"id": "C16", "title": "p-values are probabilities", "statement": "For every non-empty limit distribution and every statistic value, the left, right and two-sided p-values lie in [0,1].", "quantifier": "every list of simulated values, every statistic value, every alternative", "why_tests_cant": "All lists of all lengths.", "anchors": ["src/pysatl_criterion/hypothesis_testing/p_value/calculator/p_value_calculator.py"]}
{"id": "C17", "title": "p-values are monotone in the statistic", "statement": "The left p-value never decreases and the right p-value never increases when the statistic grows; the two always add up to 1.", "quantifier": "every limit distribution, every pair of statistic values", "why_tests_cant": "All lists and pairs.", "anchors": ["src/pysatl_criterion/hypothesis_testing/p_value/calculator/p_value_calculator.py"]}
{"id": "C18", "title": "p-values depend only on the collection of simulated values", "statement": "Reordering the limit distribution, or repeating the whole of it k times, changes no p-value.", "quantifier": "every limit distribution, every permutation, every repetition count k>0", "why_tests_cant": "All permutations.", "anchors": ["src/pysatl_criterion/hypothesis_testing/p_value/calculator/p_value_calculator.py"]}
{"id": "C19", "title": "one-sided p-values count ties as evidence for the null", "statement": "The right p-value equals the fraction of simulated values >= the statistic and the left p-value the fraction <= the statistic, so a statistic equal to every simulated value has p-value 1.", "quantifier": "every limit distribution, every statistic value", "why_tests_cant": "Continuous test data contain no ties.", "anchors": ["src/pysatl_criterion/hypothesis_testing/p_value/calculator/p_value_calculator.py"]}
{"id": "C20", "title": "the Monte Carlo p-value test keeps its level", "statement": "If statistic and B simulated values are exchangeable, rejecting when the right p-value is <= alpha has probability at most alpha: among B+1 values taken in turn as the observed one, with the others as the simulation, at most alpha*(B+1) are rejected.", "quantifier": "every list of B+1 values, every alpha in [0,1)", "why_tests_cant": "A counting statement about all samples.", "anchors": ["src/pysatl_criterion/hypothesis_testing/p_value/calculator/p_value_calculator.py", "src/pysatl_criterion/hypothesis_testing/goodness_of_fit_test.py"]}
{"id": "C21", "title": "critical values lie inside the simulated range", "statement": "For a significance level in [0,1] and a non-empty limit distribution every critical value lies between the smallest and the largest simulated value; for a level that asks for a quantile outside [0,1] an error is raised.", "quantifier": "every limit distribution, every significance level, each alternative", "why_tests_cant": "All lists and levels.", "anchors": ["src/pysatl_criterion/hypothesis_testing/critical_values/calculator/critical_value_calculator.py"]}
{"id": "C22", "title": "critical values are monotone in the significance level", "statement": "Raising the significance level never lowers the left critical value and never raises the right one; the two-sided critical values are ordered (left <= right) and the two-sided acceptance interval only shrinks.", "quantifier": "every limit distribution, all levels in [0,1]", "why_tests_cant": "All lists and pairs of levels; interpolation between order statistics.", "anchors": ["src/pysatl_criterion/hypothesis_testing/critical_values/calculator/critical_value_calculator.py"]}
{"id": "C23", "title": "critical values are quantiles of the simulated sample", "statement": "The critical value is the (linearly interpolated) empirical quantile of the simulated sample, each simulated value counted as often as it occurs.", "quantifier": "every limit distribution, every level", "why_tests_cant": "Continuous simulations have no repeated values, so tests do not see multiplicities being dropped.", "anchors": ["src/pysatl_criterion/hypothesis_testing/critical_values/calculator/critical_value_calculator.py"]}
{"id": "C24", "title": "critical-value decisions are the stated comparisons and monotone in the level", "statement": "With the critical-value method a left-tailed test rejects exactly when statistic < critical value, a right-tailed one exactly when statistic > critical value, a two-sided one exactly when the statistic lies outside the closed interval; a hypothesis rejected at one level is rejected at every larger level.", "quantifier": "every limit distribution, statistic value, level, alternative", "why_tests_cant": "All combinations.", "anchors": ["src/pysatl_criterion/hypothesis_testing/critical_values/critical_area/critical_areas.py", "src/pysatl_criterion/hypothesis_testing/critical_values/calculator/critical_value_calculator.py", "src/pysatl_criterion/hypothesis_testing/alternative_factory/alternative_factories.py", "src/pysatl_criterion/hypothesis_testing/goodness_of_fit_test.py"]}
{"id": "C25", "title": "p-value decisions are monotone in the level", "statement": "With the p-value method the hypothesis is rejected exactly when p-value <= level; a hypothesis rejected at one level is rejected at every larger level.", "quantifier": "every limit distribution, statistic value, level, alternative", "why_tests_cant": "All combinations.", "anchors": ["src/pysatl_criterion/hypothesis_testing/p_value/calculator/p_value_calculator.py", "src/pysatl_criterion/hypothesis_testing/alternative_factory/alternative_factories.py", "src/pysatl_criterion/hypothesis_testing/goodness_of_fit_test.py"]}
{"id": "C26", "title": "the two decision methods agree", "statement": "On the same limit distribution, statistic and level, the p-value method and the critical-value method reach the same decision.", "quantifier": "every limit distribution, statistic value, level, alternative", "why_tests_cant": "Disagreement occurs only for values next to the critical value.", "anchors": ["src/pysatl_criterion/hypothesis_testing/p_value/calculator/p_value_calculator.py", "src/pysatl_criterion/hypothesis_testing/critical_values/calculator/critical_value_calculator.py", "src/pysatl_criterion/hypothesis_testing/alternative_factory/alternative_factories.py", "src/pysatl_criterion/hypothesis_testing/goodness_of_fit_test.py"]}
{"id": "C27", "title": "a goodness-of-fit test reports consistent fields", "statement": "The result of GoodnessOfFitTest.test carries the statistic of the given sample and the given level; the p-value method fills p_value and leaves critical_value empty, the critical-value method the reverse; when no limit distribution is available both methods raise ValueError instead of deciding.", "quantifier": "every statistic, sample, level, resolver answer", "why_tests_cant": "All samples and resolver answers.", "anchors": ["src/pysatl_criterion/hypothesis_testing/goodness_of_fit_test.py", "src/pysatl_criterion/hypothesis_testing/model.py", "src/pysatl_criterion/hypothesis_testing/alternative_factory/alternative_factories.py"]}
{"id": "C28", "title": "the tail used is the tail of the statistic's alternative", "statement": "A left alternative is judged with the left tail, a right alternative with the right tail, a two-sided one with both, by both decision methods; the limit distribution requested is the one for the length of the given sample.", "quantifier": "every statistic, sample and resolver", "why_tests_cant": "Dispatch over all inputs.", "anchors": ["src/pysatl_criterion/hypothesis_testing/alternative_factory/alternative_factories.py", "src/pysatl_criterion/hypothesis_testing/goodness_of_fit_test.py", "src/pysatl_criterion/statistics/alternative.py"]}
{"id": "C29", "title": "Monte Carlo resolution returns the requested number of simulations", "statement": "A Monte Carlo resolver can be built only with a positive count; for a positive sample size it returns exactly that many values, each obtained by running the statistic on a fresh sample of exactly the requested size drawn in sequence from the generator; for a non-positive sample size it raises ValueError and draws nothing; an error in any run is reported and no partial list is returned.", "quantifier": "every count, sample size, generator, statistic", "why_tests_cant": "Loop counts for every size and failure position.", "anchors": ["src/pysatl_criterion/hypothesis_testing/limit_distribution/base.py::MonteCarloLimitDistributionResolver"]}
{"id": "C30", "title": "Monte Carlo simulates under the tested null hypothesis", "statement": "The samples used to build the limit distribution are drawn from the distribution whose parameters the statistic reports in its hypothesis.", "quantifier": "every statistic family, every parameter value", "why_tests_cant": "Tests use the default parameters, for which ignored and honoured parameters coincide.", "anchors": ["src/pysatl_criterion/hypothesis_testing/limit_distribution/base.py::MonteCarloLimitDistributionResolver.resolve", "src/pysatl_criterion/utils/generator.py", "src/pysatl_criterion/generator/generators.py", "src/pysatl_criterion/statistics/goodness_of_fit"]}
{"id": "C31", "title": "the storage resolver returns what was stored for the statistic", "statement": "If the limit distribution of the statistic with its parameters and the sample size is in the storage, the storage resolver returns it.", "quantifier": "every storage content, every statistic and sample size", "why_tests_cant": "All stored Monte Carlo counts.", "anchors": ["src/pysatl_criterion/hypothesis_testing/limit_distribution/base.py::StorageLimitDistributionResolver.resolve"]}
{"id": "C32", "title": "the storage behaves like a map", "statement": "Under any sequence of insert, bulk insert and delete the content is that of a finite map from (experiment id, code, parameters, sample size, Monte Carlo count) to results: last write wins, other keys are untouched, no key occurs twice.", "quantifier": "every history of operations", "why_tests_cant": "All operation sequences.", "anchors": ["src/pysatl_criterion/persistence/sqlalchemy/datastorage.py", "src/pysatl_criterion/persistence/sqlalchemy/models/limit_distribution_orm.py"]}
{"id": "C33", "title": "insert then get", "statement": "After insert_data(m), get_data with m's code, parameters, sample size and Monte Carlo count returns m with its results rounded to single precision, provided no other experiment stored the same combination.", "quantifier": "every storage content, every model", "why_tests_cant": "All contents.", "anchors": ["src/pysatl_criterion/persistence/sqlalchemy/datastorage.py", "src/pysatl_criterion/persistence/sqlalchemy/models/limit_distribution_orm.py", "src/pysatl_criterion/persistence/sqlalchemy/alchemy_decorator.py"]}
{"id": "C34", "title": "get_data never fails on a valid history", "statement": "For every history of inserts and deletes and every query get_data returns a model or None.", "quantifier": "every history, every query", "why_tests_cant": "Only histories with two experiment ids and otherwise equal keys fail.", "anchors": ["src/pysatl_criterion/persistence/sqlalchemy/datastorage.py::AlchemyLimitDistributionStorage.get_data"]}
{"id": "C35", "title": "delete then get", "statement": "After a successful delete_data(q), get_data(q) returns None and every query for a different combination returns what it returned before; deleting an absent combination changes nothing.", "quantifier": "every storage content, every query", "why_tests_cant": "All contents.", "anchors": ["src/pysatl_criterion/persistence/sqlalchemy/datastorage.py"]}
{"id": "C36", "title": "critical-value lookup returns the best simulation", "statement": "get_data_for_cv returns None exactly when no row has the code and sample size, and otherwise a row of that code and sample size whose Monte Carlo count is maximal.", "quantifier": "every storage content, every query", "why_tests_cant": "All contents.", "anchors": ["src/pysatl_criterion/persistence/sqlalchemy/datastorage.py::AlchemyLimitDistributionStorage.get_data_for_cv"]}
{"id": "C37", "title": "critical-value lookup honours the sample-size tolerance", "statement": "get_data_for_cv finds a row whenever one exists with the requested code and a sample size within sample_size_error of the requested one.", "quantifier": "every storage content, every query", "why_tests_cant": "Default tolerance 0 hides it.", "anchors": ["src/pysatl_criterion/persistence/sqlalchemy/datastorage.py::AlchemyLimitDistributionStorage.get_data_for_cv", "src/pysatl_criterion/persistence/models/limit_distribution.py"]}
{"id": "C38", "title": "bulk lookup returns the best row per code", "statement": "get_bulk_data returns at most one row per code, only requested codes, only sample sizes within the tolerance (inclusive), exactly the requested codes for which such a row exists, and for each a row of maximal Monte Carlo count.", "quantifier": "every storage content, code list, size, tolerance", "why_tests_cant": "All contents.", "anchors": ["src/pysatl_criterion/persistence/sqlalchemy/datastorage.py::AlchemyLimitDistributionStorage.get_bulk_data"]}
{"id": "C39", "title": "bulk insert is atomic and equals inserting one by one", "statement": "insert_bulk_data leaves the storage as inserting the models one after the other would, and if it fails at any point, or the process dies before it returns, the storage is as before the call.", "quantifier": "every storage content, every list, every failure point", "why_tests_cant": "All crash points.", "anchors": ["src/pysatl_criterion/persistence/sqlalchemy/datastorage.py::AlchemyLimitDistributionStorage.insert_bulk_data"]}
{"id": "C40", "title": "stored results survive the binary encoding", "statement": "Encoding a list of floats and decoding it returns the list in double mode and the list rounded to single precision in single mode; encoding what was decoded again changes nothing.", "quantifier": "every list shorter than 2^32, both modes", "why_tests_cant": "All lists.", "anchors": ["src/pysatl_criterion/persistence/sqlalchemy/alchemy_decorator.py"]}
{"id": "C41", "title": "malformed blobs are rejected", "statement": "Decoding a blob shorter than the header, with a version other than 1, or whose payload holds fewer numbers than announced raises an error; decoding never returns a list whose length differs from the announced one.", "quantifier": "every byte string", "why_tests_cant": "All byte strings.", "anchors": ["src/pysatl_criterion/persistence/sqlalchemy/alchemy_decorator.py::CompressedFloatArray.process_result_value"]}
{"id": "C42", "title": "numerically equal parameters address the same row", "statement": "A row stored with some parameters is found by a query whose parameters are numerically equal.", "quantifier": "every parameter list", "why_tests_cant": "Tests reuse the same literals.", "anchors": ["src/pysatl_criterion/persistence/sqlalchemy/datastorage.py", "src/pysatl_criterion/persistence/sqlalchemy/models/limit_distribution_orm.py"]}
{"id": "C43", "title": "a successful load makes the data available locally", "statement": "If load(query) returns True, the local storage afterwards contains the requested data.", "quantifier": "every content of both storages, every query", "why_tests_cant": "All contents.", "anchors": ["src/pysatl_criterion/hypothesis_testing/critical_values/loader/remote_loader.py::CriticalValueLoader.load"]}
{"id": "C44", "title": "bulk load accounts for every requested code", "statement": "With a reachable remote, requested_count is the number of requested codes, already_cached_count the number of those with local data, not_found_codes lists in order exactly the requested codes with data in neither storage, and newly_cached_count is the number of distinct remaining codes.", "quantifier": "every content of both storages, every code list, size and tolerance", "why_tests_cant": "All contents and duplicate patterns.", "anchors": ["src/pysatl_criterion/hypothesis_testing/critical_values/loader/remote_loader.py::CriticalValueLoader.load_bulk"]}
{"id": "C45", "title": "after a bulk load the found codes are available locally", "statement": "After load_bulk every requested code not reported in not_found_codes can be read from the local storage for the requested sample size.", "quantifier": "every content of both storages, every code list, size, tolerance, including a failing local insert", "why_tests_cant": "Failure of the local insert and a positive tolerance are not exercised.", "anchors": ["src/pysatl_criterion/hypothesis_testing/critical_values/loader/remote_loader.py::CriticalValueLoader.load_bulk"]}
{"id": "C46", "title": "repeating a bulk load is harmless", "statement": "With tolerance 0 and no local failure a second identical load_bulk inserts nothing, reports as cached everything found the first time, and reports the same codes as not found.", "quantifier": "every content of both storages, every code list", "why_tests_cant": "All contents.", "anchors": ["src/pysatl_criterion/hypothesis_testing/critical_values/loader/remote_loader.py::CriticalValueLoader.load_bulk"]}
{"id": "C47", "title": "bulk load reports only unavailable codes as not found", "statement": "A code in not_found_codes has no data in the local storage.", "quantifier": "every content, remote reachable or not", "why_tests_cant": "Offline mode with a warm cache.", "anchors": ["src/pysatl_criterion/hypothesis_testing/critical_values/loader/remote_loader.py::CriticalValueLoader.load_bulk"]}
{"id": "C48", "title": "the proximity graph is the threshold graph of the sample", "statement": "Two different observations are adjacent exactly when they differ by less than the distance threshold; each adjacency is recorded once at each end and nothing else is recorded.", "quantifier": "every sample, every threshold", "why_tests_cant": "All samples.", "anchors": ["src/pysatl_criterion/statistics/goodness_of_fit/graph_goodness_of_fit.py::AbstractGraphTestStatistic._make_adjacency_list"]}
{"id": "C49", "title": "edge-number statistic", "statement": "The edge-number statistic is the number of edges of the proximity graph.", "quantifier": "every non-empty sample", "why_tests_cant": "All samples.", "anchors": ["src/pysatl_criterion/statistics/goodness_of_fit/graph_goodness_of_fit.py::GraphEdgesNumberTestStatistic"]}
{"id": "C50", "title": "degree statistics", "statement": "The maximum-degree statistic is the largest degree, and the average-degree statistic is twice the number of edges divided by the number of observations.", "quantifier": "every non-empty sample", "why_tests_cant": "All samples.", "anchors": ["src/pysatl_criterion/statistics/goodness_of_fit/graph_goodness_of_fit.py::GraphMaxDegreeTestStatistic", "src/pysatl_criterion/statistics/goodness_of_fit/graph_goodness_of_fit.py::GraphAverageDegreeTestStatistic"]}
{"id": "C51", "title": "connected-components statistic", "statement": "The search terminates and the statistic is the number of connected components of the proximity graph.", "quantifier": "every non-empty sample", "why_tests_cant": "Termination and correctness of a graph search.", "anchors": ["src/pysatl_criterion/statistics/goodness_of_fit/graph_goodness_of_fit.py::GraphConnectedComponentsTestStatistic"]}
{"id": "C52", "title": "clique-number statistic", "statement": "The statistic is the size of the largest clique of the proximity graph.", "quantifier": "every non-empty sample", "why_tests_cant": "The off-by-one depends on where the largest cluster sits.", "anchors": ["src/pysatl_criterion/statistics/goodness_of_fit/graph_goodness_of_fit.py::GraphCliqueNumberTestStatistic"]}
{"id": "C53", "title": "independence-number statistic", "statement": "The statistic is the size of the largest independent set of the proximity graph.", "quantifier": "every non-empty list", "why_tests_cant": "Optimality of a greedy algorithm over all samples.", "anchors": ["src/pysatl_criterion/statistics/goodness_of_fit/graph_goodness_of_fit.py::GraphIndependenceNumberTestStatistic"]}
{"id": "C54", "title": "graph statistics do not depend on order, location or scale", "statement": "The six graph statistics are unchanged when the sample is permuted, shifted, or multiplied by a positive constant.", "quantifier": "every sample, permutation, shift, scale", "why_tests_cant": "All transformations.", "anchors": ["src/pysatl_criterion/statistics/goodness_of_fit/graph_goodness_of_fit.py", "src/pysatl_criterion/statistics/goodness_of_fit/exponent.py::AbstractGraphExponentialityGofStatistic", "src/pysatl_criterion/statistics/goodness_of_fit/normal.py::AbstractGraphNormalityGofStatistic"]}
{"id": "C55", "title": "Kolmogorov-Smirnov is the largest distance between distribution functions", "statement": "For a continuous hypothesised distribution function the two-sided statistic is the supremum over the line of |empirical - hypothesised|, the right-tailed one the supremum of empirical - hypothesised, the left-tailed one the supremum of hypothesised - empirical; all lie in [0,1] and the two-sided one is at least 1/(2n).", "quantifier": "every non-empty sample, every continuous distribution function", "why_tests_cant": "A supremum over the real line for all samples.", "anchors": ["src/pysatl_criterion/statistics/goodness_of_fit/common.py::KSStatistic"]}
{"id": "C56", "title": "Cramer-von Mises is the integrated squared distance", "statement": "The statistic equals n times the integral over [0,1] of the squared difference of the empirical distribution function of the transformed sample and the identity; it is at least 1/(12n), with equality exactly at the midpoints.", "quantifier": "every non-empty sample of values in [0,1]", "why_tests_cant": "An integral identity for all samples.", "anchors": ["src/pysatl_criterion/statistics/goodness_of_fit/common.py::CrammerVonMisesStatistic"]}
{"id": "C57", "title": "Watson statistics of the families agree", "statement": "The Watson statistic computed by the beta, gamma, Student and Weibull families is the same function of the transformed sample, and the uniform family computes it too.", "quantifier": "every non-empty transformed sample", "why_tests_cant": "An identity over all samples.", "anchors": ["src/pysatl_criterion/statistics/goodness_of_fit/beta.py::WatsonBetaGofStatistic", "src/pysatl_criterion/statistics/goodness_of_fit/gamma.py::WatsonGammaGofStatistic", "src/pysatl_criterion/statistics/goodness_of_fit/student.py::WatsonStudentGofStatistic", "src/pysatl_criterion/statistics/goodness_of_fit/weibull.py::WatsonWeibullGofStatistic", "src/pysatl_criterion/statistics/goodness_of_fit/uniform.py::WatsonUniformGofStatistic"]}
{"id": "C58", "title": "Kuiper statistic", "statement": "The Kuiper statistic is D+ + D-, lies in [1/n, 1], is at least the Kolmogorov-Smirnov statistic and at most twice it.", "quantifier": "every non-empty transformed sample in [0,1]", "why_tests_cant": "All samples.", "anchors": ["src/pysatl_criterion/statistics/goodness_of_fit/uniform.py::KuiperUniformGofStatistic", "src/pysatl_criterion/statistics/goodness_of_fit/beta.py::KuiperBetaGofStatistic", "src/pysatl_criterion/statistics/goodness_of_fit/gamma.py::KuiperGammaGofStatistic", "src/pysatl_criterion/statistics/goodness_of_fit/student.py::KuiperStudentGofStatistic"]}
{"id": "C59", "title": "power-divergence statistics", "statement": "The Pearson statistic is non-negative and zero exactly when observed equals expected; with equal totals the likelihood-ratio statistic is non-negative as well.", "quantifier": "every observed and expected vector with positive expectations", "why_tests_cant": "All vectors.", "anchors": ["src/pysatl_criterion/statistics/goodness_of_fit/common.py::Chi2Statistic"]}
{"id": "C60", "title": "spacing statistics", "statement": "Greenwood lies between 1/(n+1) and 1, Sherman between 0 and (b-a)*n/(n+1), with the lower ends attained exactly for equal spacings.", "quantifier": "every sample in the support", "why_tests_cant": "All samples.", "anchors": ["src/pysatl_criterion/statistics/goodness_of_fit/uniform.py::GreenwoodTestUniformGofStatistic", "src/pysatl_criterion/statistics/goodness_of_fit/uniform.py::ShermanUniformGofStatistic", "src/pysatl_criterion/statistics/goodness_of_fit/gamma.py::GreenwoodGammaGofStatistic"]}
{"id": "C61", "title": "statistics do not depend on the order of the sample", "statement": "Permuting the sample changes no goodness-of-fit statistic.", "quantifier": "every sample, every permutation", "why_tests_cant": "All permutations.", "anchors": ["src/pysatl_criterion/statistics/goodness_of_fit/common.py", "src/pysatl_criterion/statistics/goodness_of_fit/weibull.py::RSBWeibullGofStatistic", "src/pysatl_criterion/statistics/goodness_of_fit/uniform.py", "src/pysatl_criterion/statistics/goodness_of_fit/exponent.py"]}
{"id": "C62", "title": "exponentiality statistics are scale invariant", "statement": "Multiplying the sample by a positive constant leaves the scale-free exponentiality statistics (Epps-Pulley, Gini, Moran, Gnedenko, Harris, Lorenz, Pietra, Wong-Wong, Deshpande and the like) unchanged.", "quantifier": "every positive sample, every positive factor", "why_tests_cant": "All samples and factors.", "anchors": ["src/pysatl_criterion/statistics/goodness_of_fit/exponent.py"]}
{"id": "C63", "title": "normality statistics are location-scale invariant", "statement": "Replacing the sample by a + b*x with b>0 leaves every normality statistic unchanged.", "quantifier": "every non-degenerate sample, every a and b>0", "why_tests_cant": "All samples and transformations.", "anchors": ["src/pysatl_criterion/statistics/goodness_of_fit/normal.py"]}
{"id": "C64", "title": "values outside the support are rejected", "statement": "Uniform and beta statistics raise ValueError exactly when an observation lies outside the support; constructors raise ValueError exactly for parameters outside the parameter space.", "quantifier": "every sample and parameter value", "why_tests_cant": "All positions of the bad value.", "anchors": ["src/pysatl_criterion/statistics/goodness_of_fit/uniform.py::AbstractUniformGofStatistic", "src/pysatl_criterion/statistics/goodness_of_fit/beta.py::AbstractBetaGofStatistic", "src/pysatl_criterion/statistics/goodness_of_fit/gamma.py::AbstractGammaGofStatistic", "src/pysatl_criterion/statistics/goodness_of_fit/student.py::AbstractStudentGofStatistic", "src/pysatl_criterion/statistics/goodness_of_fit/log_normal.py::AbstractLogNormalGofStatistic"]}
{"id": "C65", "title": "log-normal statistics are normal statistics of the logarithms", "statement": "Each derived log-normal statistic equals the normality statistic of the standardised logarithms, is infinite exactly when an observation is not positive, and judges with the same tail.", "quantifier": "every sample and parameters, every wrapped statistic", "why_tests_cant": "All samples.", "anchors": ["src/pysatl_criterion/statistics/goodness_of_fit/log_normal.py::_create_lognormal_class"]}
{"id": "C66", "title": "every registered Weibull criterion can be evaluated", "statement": "Calling a registered Weibull criterion on a positive sample returns a value.", "quantifier": "every positive sample, every criterion", "why_tests_cant": "Argument-independent failure of string dispatch is seen only by enumerating criteria.", "anchors": ["src/pysatl_criterion/statistics/goodness_of_fit/weibull.py"]}
{"id": "C67", "title": "criterion codes identify criteria", "statement": "Two different criteria never share a full code, so results stored under a code belong to one criterion.", "quantifier": "every pair of criteria in the library", "why_tests_cant": "Quadratically many pairs; codes are built by string concatenation.", "anchors": ["src/pysatl_criterion/statistics/goodness_of_fit/", "src/pysatl_criterion/utils/statistic.py"]}
{"id": "C68", "title": "each distribution has one descriptor and one generator, and defaults are valid", "statement": "Every distribution type has exactly one descriptor and one generator, and the default parameters in the descriptor satisfy the descriptor's own validators.", "quantifier": "every distribution type and parameter", "why_tests_cant": "Needs the whole table.", "anchors": ["src/pysatl_criterion/distribution/distributions.py", "src/pysatl_criterion/generator/generators.py", "src/pysatl_criterion/utils/generator.py", "src/pysatl_criterion/utils/distribution.py"]}
{"id": "C69", "title": "descriptor parameters are understood by the generator", "statement": "Creating the generator of a distribution from the parameters named in its descriptor uses every given value, and the defaults of descriptor and generator coincide.", "quantifier": "every distribution type and parameter", "why_tests_cant": "Unknown keyword arguments are silently swallowed.", "anchors": ["src/pysatl_criterion/distribution/distributions.py", "src/pysatl_criterion/generator/generators.py"]}
{"id": "C70", "title": "subclass discovery is complete", "statement": "The discovery of available criteria and generators visits every concrete class below the root, at any depth and with multiple inheritance, each once.", "quantifier": "every class hierarchy", "why_tests_cant": "All hierarchies.", "anchors": ["src/pysatl_criterion/utils/statistic.py", "src/pysatl_criterion/utils/generator.py", "src/pysatl_criterion/utils/distribution.py"]}
{"id": "C71", "title": "best likelihood selection", "statement": "find_max_probability_function returns the first function with the largest strictly positive value, and None exactly when no value is positive.", "quantifier": "every list of functions and data", "why_tests_cant": "All lists.", "anchors": ["src/pysatl_criterion/estimation/maximum_likelihood/maximum_likelihood.py"]}
{"id": "C72", "title": "a larger Kolmogorov-Smirnov distance is never weaker evidence", "statement": "For every alternative of the Kolmogorov-Smirnov family, if a sample at some distance from the hypothesised distribution is rejected then so is any sample at a larger distance (same size, same limit distribution, same level).", "quantifier": "every limit distribution, level, alternative and pair of distances", "why_tests_cant": "Needs limit distributions and distances in both tails.", "anchors": ["src/pysatl_criterion/statistics/goodness_of_fit/common.py::KSStatistic.alternative", "src/pysatl_criterion/hypothesis_testing/goodness_of_fit_test.py", "src/pysatl_criterion/hypothesis_testing/alternative_factory/alternative_factories.py"]}
{"id": "C73", "title": "empirical-distribution statistics compare with the hypothesised distribution", "statement": "The Kolmogorov-Smirnov and Cramer-von Mises statistics of every family measure the distance of the sample to the distribution with the parameters the statistic object was built with.", "quantifier": "every family, every parameter value, both statistics, every sample", "why_tests_cant": "Default parameters hide a parameter that is never used.", "anchors": ["src/pysatl_criterion/statistics/goodness_of_fit/normal.py", "src/pysatl_criterion/statistics/goodness_of_fit/exponent.py", "src/pysatl_criterion/statistics/goodness_of_fit/uniform.py", "src/pysatl_criterion/statistics/goodness_of_fit/weibull.py", "src/pysatl_criterion/statistics/goodness_of_fit/gamma.py", "src/pysatl_criterion/statistics/goodness_of_fit/beta.py", "src/pysatl_criterion/statistics/goodness_of_fit/log_normal.py", "src/pysatl_criterion/statistics/goodness_of_fit/student.py"]}
{"id": "C74", "title": "generator parameters mean what the descriptors say", "statement": "A truncated normal generator only produces values in [a,b]; a Weibull generator with descriptor parameters (scale a, shape k) samples the Weibull distribution with that scale; an inverse Gaussian generator has mean mu.", "quantifier": "every parameter value", "why_tests_cant": "Default parameters hide the difference between parametrisations.", "anchors": ["src/pysatl_criterion/generator/generators.py", "src/pysatl_criterion/core/distributions", "src/pysatl_criterion/distribution/distributions.py"]}
{"id": "C75", "title": "blobs with an unknown number format are rejected", "statement": "Reading a stored blob whose type code is not one of the two the library writes raises an error.", "quantifier": "every blob", "why_tests_cant": "All byte strings.", "anchors": ["src/pysatl_criterion/persistence/sqlalchemy/alchemy_decorator.py::CompressedFloatArray.process_result_value"]}
{"id": "C76", "title": "every graph statistic can be evaluated on generated samples", "statement": "The six graph statistics of the exponentiality and normality families return a value on every non-empty sample, whether it is a list or the array a generator returns.", "quantifier": "every non-empty sample, list or array, every graph statistic", "why_tests_cant": "Tests use lists; generators return arrays.", "anchors": ["src/pysatl_criterion/statistics/goodness_of_fit/graph_goodness_of_fit.py", "src/pysatl_criterion/statistics/goodness_of_fit/exponent.py", "src/pysatl_criterion/statistics/goodness_of_fit/normal.py", "src/pysatl_criterion/statistics/goodness_of_fit/gamma.py"]}
{"id": "C77", "title": "evaluating a statistic leaves the caller's sample unchanged", "statement": "After a statistic has been evaluated the sequence the caller passed holds the same numbers in the same order.", "quantifier": "every sample, every statistic", "why_tests_cant": "Aliasing is visible only to a caller that keeps the sample.", "anchors": ["src/pysatl_criterion/statistics/goodness_of_fit/graph_goodness_of_fit.py", "src/pysatl_criterion/statistics/goodness_of_fit/exponent.py", "src/pysatl_criterion/statistics/goodness_of_fit/normal.py", "src/pysatl_criterion/statistics/goodness_of_fit/gamma.py"]}
{"id": "C78", "title": "a likelihood function returns the largest likelihood of its family", "statement": "For observations in the support of the family, likelihood_function_X returns the largest value the likelihood of the observations takes over all parameters of family X (uniform, normal, log-normal, exponential, Weibull, Pareto, Laplace, discrete uniform, Bernoulli, binomial, Poisson, geometric).", "quantifier": "every non-empty sample in the support of the family", "why_tests_cant": "A maximum over a continuum of parameters cannot be tested.", "anchors": ["src/pysatl_criterion/estimation/maximum_likelihood/function_for_maximum_likelihood.py"]}
{"id": "C79", "title": "the best likelihood function is reported with its value", "statement": "find_result_of_likelihood_function returns the function with the largest likelihood and its value for every non-empty numeric sample, and raises ValueError only for an empty one or when no likelihood is positive.", "quantifier": "every sample of numbers", "why_tests_cant": "All samples.", "anchors": ["src/pysatl_criterion/estimation/maximum_likelihood/maximum_likelihood.py::find_result_of_likelihood_function"]}
{"id": "C80", "title": "worse fit is never weaker evidence", "statement": "For a criterion whose statistic measures the distance of the sample from the hypothesised family, a sample that fits perfectly is not rejected in favour of one that fits worse: the tail the criterion judges with is the one in which the distance grows.", "quantifier": "every criterion with a distance-like statistic, every sample", "why_tests_cant": "Needs the sign of a monotone relation over all samples.", "anchors": ["src/pysatl_criterion/statistics/goodness_of_fit/exponent.py", "src/pysatl_criterion/statistics/goodness_of_fit/normal.py"]}
{"id": "C81", "title": "ranges of exponentiality statistics", "statement": "The exponentiality statistics stay in their mathematical ranges: Wong-Wong is at least 1 and equal to 1 exactly for equal observations, Moran at most the Euler constant, Epstein non-negative, Lorenz with parameter p in [0,p], Pietra in [0,1), Deshpande, Hollander-Proschan and Kimber-Michael in [0,1], Ahsanullah and Rossberg in [-1,1], Epps-Pulley at most sqrt(12 n) in absolute value, Frozini in [0, sqrt n], Shapiro-Wilk in [1/(n-1)^2, 1].", "quantifier": "every positive sample that is large enough for the statistic, without ties for Epstein and not constant for Shapiro-Wilk, where the formulas are undefined", "why_tests_cant": "Inequalities over all samples.", "anchors": ["src/pysatl_criterion/statistics/goodness_of_fit/exponent.py"]}
{"id": "C82", "title": "the Gini statistic is the Gini coefficient", "statement": "The Gini exponentiality statistic is the sample Gini coefficient: the mean absolute difference of all pairs divided by twice the mean.", "quantifier": "every positive sample with at least two observations", "why_tests_cant": "An identity over all samples.", "anchors": ["src/pysatl_criterion/statistics/goodness_of_fit/exponent.py::GiniExponentialityGofStatistic"]}
{"id": "C83", "title": "the small-argument branch of the Kullback-Leibler statistics continues the general formula", "statement": "Near r = 0 the Kullback-Leibler log-normality statistics replace the divergence, its standard deviation and the integrand by series expansions; the replacements are the limits of the general formulas.", "quantifier": "every sample, every r near 0", "why_tests_cant": "A limit.", "anchors": ["src/pysatl_criterion/statistics/goodness_of_fit/log_normal.py::KLSupremumLogNormalGoFStatistic.execute_statistic", "src/pysatl_criterion/statistics/goodness_of_fit/log_normal.py::KLIntegralLogNormalGoFStatistic.execute_statistic"]}
{"id": "C84", "title": "impossible samples are rejected", "statement": "A sample with a non-positive observation, which no log-normal distribution can produce, is rejected by every log-normality criterion that reports an infinite statistic for it.", "quantifier": "every sample with a non-positive observation, every criterion, level below 1, simulated values and decision method", "why_tests_cant": "All samples, levels and simulations.", "anchors": ["src/pysatl_criterion/statistics/goodness_of_fit/log_normal.py::_create_lognormal_class", "src/pysatl_criterion/hypothesis_testing/goodness_of_fit_test.py"]}
{"id": "C85", "title": "built-in critical values are ordered", "statement": "The critical values the Kullback-Leibler log-normality statistics compute themselves are non-negative and do not grow with the significance level.", "quantifier": "every sample size and supported level", "why_tests_cant": "A continuum of levels.", "anchors": ["src/pysatl_criterion/statistics/goodness_of_fit/log_normal.py::KLSupremumLogNormalGoFStatistic.calculate_critical_value", "src/pysatl_criterion/statistics/goodness_of_fit/log_normal.py::KLIntegralLogNormalGoFStatistic.calculate_critical_value"]}
{"id": "C86", "title": "uniformity statistics do not depend on the unit of measurement", "statement": "Replacing the sample by c + d*x and the interval [a,b] by [c + d*a, c + d*b] with d>0 leaves every uniformity statistic unchanged.", "quantifier": "every sample in [a,b], every c and d>0, every uniformity statistic and option", "why_tests_cant": "All samples, intervals and transformations; tests use [0,1].", "anchors": ["src/pysatl_criterion/statistics/goodness_of_fit/uniform.py"]}
{"id": "C87", "title": "uniformity statistics have their nominal expectations under the hypothesis", "statement": "For independent observations uniformly distributed on [a,b] the expectation of the Neyman smooth statistic with k components is k, that of the Stein statistic 0, that of Pearson's statistic with k bins k-1, that of the Cramer-von Mises statistic 1/6 and that of the Anderson-Darling statistic 1; for any family with a continuous distribution function the last two hold as well and the Watson statistic has expectation 1/12.", "quantifier": "every interval, sample size, number of components or bins", "why_tests_cant": "An expectation over a continuum of samples.", "anchors": ["src/pysatl_criterion/statistics/goodness_of_fit/uniform.py"]}
{"id": "C88", "title": "the censored Stein statistic without censoring is the Stein statistic", "statement": "If no observation is marked as censored, the censored Stein statistic equals the Stein statistic, however the marks are passed.", "quantifier": "every sample, every way of saying that nothing is censored", "why_tests_cant": "All samples and argument types.", "anchors": ["src/pysatl_criterion/statistics/goodness_of_fit/uniform.py::CensoredSteinUniformGofStatistic", "src/pysatl_criterion/statistics/goodness_of_fit/uniform.py::SteinUniformGofStatistic"]}
{"id": "C89", "title": "every uniformity criterion can be evaluated", "statement": "Every uniformity statistic returns a number on every non-empty sample of observations in [a,b].", "quantifier": "every non-empty sample in the support, every statistic and option", "why_tests_cant": "All samples, including constant ones.", "anchors": ["src/pysatl_criterion/statistics/goodness_of_fit/uniform.py"]}
{"id": "C90", "title": "statistics of the transformed sample are distribution free", "statement": "Under the hypothesis the distribution of the Kolmogorov-Smirnov, Cramer-von Mises, Anderson-Darling, Kuiper, Watson, Min-Toshiyuki, Greenwood and Moran statistics depends only on the size of the sample, not on the hypothesised continuous distribution or its parameters, so that one table of critical values serves all of them.", "quantifier": "every pair of continuous distribution functions, every sample size, every bound", "why_tests_cant": "A statement about probability distributions.", "anchors": ["src/pysatl_criterion/statistics/goodness_of_fit/common.py", "src/pysatl_criterion/statistics/goodness_of_fit/gamma.py", "src/pysatl_criterion/statistics/goodness_of_fit/beta.py", "src/pysatl_criterion/statistics/goodness_of_fit/student.py", "src/pysatl_criterion/statistics/goodness_of_fit/uniform.py"]}
{"id": "C91", "title": "statistics see mirror images alike", "statement": "If the hypothesised distribution is symmetric, reflecting the sample about its centre leaves the two-sided statistics unchanged and exchanges the two one-sided Kolmogorov-Smirnov statistics; for the beta family the reflection exchanges the two shape parameters.", "quantifier": "every sample, every statistic of the symmetric families", "why_tests_cant": "All samples; rank-dependent weights must be symmetric for every size.", "anchors": ["src/pysatl_criterion/statistics/goodness_of_fit/common.py", "src/pysatl_criterion/statistics/goodness_of_fit/student.py", "src/pysatl_criterion/statistics/goodness_of_fit/beta.py", "src/pysatl_criterion/statistics/goodness_of_fit/uniform.py"]}
{"id": "C92", "title": "statistics of location-scale families do not depend on the unit of measurement", "statement": "Measuring in another unit, that is replacing the sample by c + d*x and the hypothesised location and scale accordingly, changes no Student statistic; replacing the sample by c*x and the rate by beta/c changes no gamma statistic.", "quantifier": "every sample, every change of unit, every statistic", "why_tests_cant": "All samples, parameters and transformations; tests use standard parameters.", "anchors": ["src/pysatl_criterion/statistics/goodness_of_fit/student.py", "src/pysatl_criterion/statistics/goodness_of_fit/gamma.py"]}
{"id": "C93", "title": "a calibration key determines the statistic", "statement": "Two criteria with the same code and the same hypothesis parameters, which share stored limit distributions and critical values, compute the same statistic from the same sample.", "quantifier": "every pair of criteria of the same class, every sample", "why_tests_cant": "Pairs of instances.", "anchors": ["src/pysatl_criterion/statistics/goodness_of_fit/common.py", "src/pysatl_criterion/statistics/goodness_of_fit/student.py", "src/pysatl_criterion/statistics/goodness_of_fit/gamma.py", "src/pysatl_criterion/persistence/"]}
{"id": "C94", "title": "Zhang's statistics are Zhang's", "statement": "The statistics named after Zhang's Z_A, Z_C and Z_K are the likelihood-ratio statistics of Zhang (2002), so that Z_A is smallest exactly when the transformed sample sits at the midpoints (i-1/2)/n.", "quantifier": "every sample", "why_tests_cant": "All samples.", "anchors": ["src/pysatl_criterion/statistics/goodness_of_fit/uniform.py", "src/pysatl_criterion/statistics/goodness_of_fit/student.py"]}
{"id": "C95", "title": "the gamma probability plot statistic measures straightness", "statement": "The gamma probability plot correlation statistic lies in [0,1], is 0 exactly when the ordered sample is an increasing affine function of the quantiles, and does not change under increasing affine transformations of the sample.", "quantifier": "every sample with at least two different observations", "why_tests_cant": "All samples.", "anchors": ["src/pysatl_criterion/statistics/goodness_of_fit/gamma.py::ProbabilityPlotCorrelationGammaGofStatistic"]}
{"id": "C96", "title": "no criterion is blind", "statement": "For every criterion and every sample size at least two there are samples with different values of the statistic, so that the criterion can tell samples apart.", "quantifier": "every criterion, every sample size", "why_tests_cant": "A statistic that ignores the data passes tests on its value for one sample.", "anchors": ["src/pysatl_criterion/statistics/goodness_of_fit/beta.py", "src/pysatl_criterion/statistics/goodness_of_fit/common.py"]}
{"id": "C97", "title": "tests for the Weibull family do not depend on its unknown parameters", "statement": "Criteria for the two-parameter Weibull family with unknown shape and scale give the same value for a sample x and for c*x^d, because the family is closed under these transformations.", "quantifier": "every positive sample, every c>0 and d>0", "why_tests_cant": "All samples and transformations; rounded constants break it only for extreme units.", "anchors": ["src/pysatl_criterion/statistics/goodness_of_fit/weibull.py"]}
{"id": "C98", "title": "the stabilised probability plot statistic measures the distance from the diagonal", "statement": "The SPP criterion of the Weibull family is the largest distance between the stabilised plotting position of the i-th smallest observation and its stabilised fitted probability.", "quantifier": "every positive sample", "why_tests_cant": "All samples; a test on one sample compares with a number.", "anchors": ["src/pysatl_criterion/statistics/goodness_of_fit/weibull.py::SPPWeibullGofStatistic"]}
{"id": "C99", "title": "Weibull statistics stay in their ranges", "statement": "The Smith-Bain statistic lies in [0,n], REJG in [0,1], and the statistics that are squares, sums of squares, Pearson's, Cabana and Quiroz's and Liao and Shimokawa's are not negative.", "quantifier": "every positive sample", "why_tests_cant": "All samples.", "anchors": ["src/pysatl_criterion/statistics/goodness_of_fit/weibull.py"]}
{"id": "C100", "title": "Pearson's statistic compares counts with expected counts", "statement": "The chi-squared criteria of all families return the sum over the cells of (count - n*p)^2/(n*p), where the cells are disjoint and cover the range of the hypothesised distribution and p is the probability of the cell under it.", "quantifier": "every sample, every number of cells, every family with a chi-squared criterion", "why_tests_cant": "All samples and cell counts; observations on cell boundaries and in the last cell matter.", "anchors": ["src/pysatl_criterion/statistics/goodness_of_fit/uniform.py::Chi2PearsonUniformGofStatistic", "src/pysatl_criterion/statistics/goodness_of_fit/beta.py", "src/pysatl_criterion/statistics/goodness_of_fit/gamma.py", "src/pysatl_criterion/statistics/goodness_of_fit/student.py", "src/pysatl_criterion/statistics/goodness_of_fit/weibull.py"]}
{"id": "C101", "title": "every normality criterion returns a number", "statement": "Executing any criterion for normality on any sample of at least eight observations that are not all equal terminates and returns a number.", "quantifier": "every criterion for normality, every sample", "why_tests_cant": "Termination is a statement about all executions; the test of the medcouple criterion is skipped in the repository.", "anchors": ["src/pysatl_criterion/statistics/goodness_of_fit/normal.py"]}
{"id": "C102", "title": "statistics built from Hermite polynomials", "statement": "The two Bontemps-Meddahi statistics are the sums of the squared normalised sample moments of the orthonormal Hermite polynomials of degrees 3 to 4 and 3 to 6 of the studentised sample, and the two statistics of Cabana and Cabana are the suprema over the sample of the absolute values of the processes of their test against asymmetry and against wrong kurtosis with five terms.", "quantifier": "every sample of at least four observations", "why_tests_cant": "Eight hand-written polynomials and their norms, a sum with hand-numbered terms; a unit test compares one number.", "anchors": ["src/pysatl_criterion/statistics/goodness_of_fit/normal.py::BontempsMeddahi1NormalityGofStatistic", "src/pysatl_criterion/statistics/goodness_of_fit/normal.py::BontempsMeddahi2NormalityGofStatistic", "src/pysatl_criterion/statistics/goodness_of_fit/normal.py::CabanaCabana1NormalityGofStatistic", "src/pysatl_criterion/statistics/goodness_of_fit/normal.py::CabanaCabana2NormalityGofStatistic"]}
{"id": "C103", "title": "the Epps-Pulley normality statistic is a distance of characteristic functions", "statement": "The normality statistic of Epps and Pulley is n times the integral, against the standard normal law, of the squared modulus of the difference between the empirical characteristic function of the standardised sample and the characteristic function of the standard normal law; hence it lies between 0 and 4n.", "quantifier": "every sample whose observations are not all equal", "why_tests_cant": "An integral identity for all samples; a unit test compares one number.", "anchors": ["src/pysatl_criterion/statistics/goodness_of_fit/normal.py::EppsPulleyNormalityGofStatistic"]}
{"id": "C104", "title": "score statistics for exponentiality", "statement": "The statistics of Cox and Oakes and of Moran are the derivatives at shape one, with the fitted rate, of the log likelihood of the sample under Weibull and gamma laws (for Moran divided by the sample size).", "quantifier": "every non-empty sample of positive numbers", "why_tests_cant": "A derivative of a likelihood for all samples.", "anchors": ["src/pysatl_criterion/statistics/goodness_of_fit/exponent.py::CoxOakesExponentialityGofStatistic", "src/pysatl_criterion/statistics/goodness_of_fit/exponent.py::MoranExponentialityGofStatistic"]}
{"id": "C105", "title": "exponentiality statistics compare the empirical law with every exponential law", "statement": "The statistics of Epps and Pulley, Moran, Cox and Oakes and Atkinson compare a functional of the empirical law of the sample with the value the same functional takes at every exponential law; Pietra's statistic and WE are the Pietra index and the squared coefficient of variation (with unbiased variance, over n) of the sample.", "quantifier": "every sample, every rate, every power", "why_tests_cant": "The centring constants must be the value at all exponential laws; a unit test compares one number.", "anchors": ["src/pysatl_criterion/statistics/goodness_of_fit/exponent.py::EppsPulleyExponentialityGofStatistic", "src/pysatl_criterion/statistics/goodness_of_fit/exponent.py::MoranExponentialityGofStatistic", "src/pysatl_criterion/statistics/goodness_of_fit/exponent.py::CoxOakesExponentialityGofStatistic", "src/pysatl_criterion/statistics/goodness_of_fit/exponent.py::AtkinsonExponentialityGofStatistic", "src/pysatl_criterion/statistics/goodness_of_fit/exponent.py::PietraExponentialityGofStatistic", "src/pysatl_criterion/statistics/goodness_of_fit/exponent.py::WeExponentialityGofStatistic"]}
{"id": "C106", "title": "Gnedenko and Harris compare mean times on test", "statement": "The statistic of Gnedenko is the mean total time on test per failure up to the r-th failure over the mean after it, and the statistic of Harris is that of the first and last r failures over that of those in the middle; the default r is n/2 and n/4 rounded.", "quantifier": "every sample of positive numbers, every r", "why_tests_cant": "All samples and all r.", "anchors": ["src/pysatl_criterion/statistics/goodness_of_fit/exponent.py::GnedenkoExponentialityGofStatistic", "src/pysatl_criterion/statistics/goodness_of_fit/exponent.py::HarrisExponentialityGofStatistic"]}
{"id": "C107", "title": "expectations under exponentiality", "statement": "For independent exponential observations with any rate, the expectation of Deshpande's statistic is 1/(1+b), that of Hollander and Proschan's is 1/4, and that of Ahsanullah's is (4n-1)/(3n^2).", "quantifier": "every rate, every sample size, every b >= 0, every probability space", "why_tests_cant": "An expectation over all outcomes; simulation only approximates it.", "anchors": ["src/pysatl_criterion/statistics/goodness_of_fit/exponent.py::DeshpandeExponentialityGofStatistic", "src/pysatl_criterion/statistics/goodness_of_fit/exponent.py::HollanderProshanExponentialityGofStatistic", "src/pysatl_criterion/statistics/goodness_of_fit/exponent.py::AhsanullahExponentialityGofStatistic"]}
{"id": "C108", "title": "order statistics against plotting positions", "statement": "The statistics of Frozini, Kimber and Michael, Kochar, Hegazy and Green and Shapiro and Wilk (exponentiality) equal the sums over the order statistics that their definitions give: deviations from the fitted exponential distribution at (i-1/2)/n, arcsine-stabilised deviations, the Kochar score J(i/(n+1)), the mean ranks -log(1-i/(n+1)), and the squared distance of the mean from the minimum over the sum of squares; the Kochar score has integral zero under every exponential law.", "quantifier": "every sample of positive numbers, every listing of its order statistics", "why_tests_cant": "All samples; sorting, indexing and plotting positions shift by one silently.", "anchors": ["src/pysatl_criterion/statistics/goodness_of_fit/exponent.py::FroziniExponentialityGofStatistic", "src/pysatl_criterion/statistics/goodness_of_fit/exponent.py::KimberMichaelExponentialityGofStatistic", "src/pysatl_criterion/statistics/goodness_of_fit/exponent.py::KocharExponentialityGofStatistic", "src/pysatl_criterion/statistics/goodness_of_fit/exponent.py::HegazyGreen1ExponentialityGofStatistic", "src/pysatl_criterion/statistics/goodness_of_fit/exponent.py::HegazyGreen2ExponentialityGofStatistic", "src/pysatl_criterion/statistics/goodness_of_fit/exponent.py::ShapiroWilkExponentialityGofStatistic"]}
{"id": "C109", "title": "the Hosking criteria are L-moment ratios", "statement": "With t = 0, 1, 2, 3 observations trimmed on either side, the Hosking statistics are built from the sample L-moments, that is, from averages over all subsamples of size r+2t of alternating sums of their order statistics.", "quantifier": "every sample of four or more numbers", "why_tests_cant": "All samples; the code computes the moments from probability weighted sums with binomial weights.", "anchors": ["src/pysatl_criterion/statistics/goodness_of_fit/normal.py::Hosking1NormalityGofStatistic", "src/pysatl_criterion/statistics/goodness_of_fit/normal.py::Hosking2NormalityGofStatistic", "src/pysatl_criterion/statistics/goodness_of_fit/normal.py::Hosking3NormalityGofStatistic", "src/pysatl_criterion/statistics/goodness_of_fit/normal.py::Hosking4NormalityGofStatistic"]}
{"id": "C110", "title": "normality criteria are defined for samples with spread", "statement": "For a sample whose observations are not all equal, no normality statistic divides by zero or takes the root or logarithm of a number outside their domain.", "quantifier": "every sample of four or more numbers that are not all equal", "why_tests_cant": "All samples; the exceptional ones form thin sets (ties, an observation equal to the mean, small sizes).", "anchors": ["src/pysatl_criterion/statistics/goodness_of_fit/normal.py::Hosking2NormalityGofStatistic", "src/pysatl_criterion/statistics/goodness_of_fit/normal.py::Hosking3NormalityGofStatistic", "src/pysatl_criterion/statistics/goodness_of_fit/normal.py::Hosking4NormalityGofStatistic", "src/pysatl_criterion/statistics/goodness_of_fit/normal.py::DoornikHansenNormalityGofStatistic", "src/pysatl_criterion/statistics/goodness_of_fit/normal.py::MartinezIglewiczNormalityGofStatistic", "src/pysatl_criterion/statistics/goodness_of_fit/normal.py::DesgagneLafayeNormalityGofStatistic", "src/pysatl_criterion/statistics/goodness_of_fit/normal.py::SpiegelhalterNormalityGofStatistic", "src/pysatl_criterion/statistics/goodness_of_fit/normal.py::JBNormalityGofStatistic"]}
{"id": "C111", "title": "generated samples follow the announced law", "statement": "The generator found for a distribution type and given parameters returns independent observations, each with the law its descriptor and docstrings announce for these parameters (mean and variance of the normal, rate of the exponential and gamma, end points of the uniform, location and scale, contamination probability, distance and noise level of Rice, and so on).", "quantifier": "every distribution type, every admissible parameter value, every sample size, every iteration order of the generator classes", "why_tests_cant": "A law is not an observable of any finite number of draws.", "anchors": ["src/pysatl_criterion/generator/generators.py", "src/pysatl_criterion/core/distributions", "src/pysatl_criterion/distribution/distributions.py", "src/pysatl_criterion/utils/generator.py::get_available_generator"]}
{"id": "C112", "title": "accepted parameters can be sampled", "statement": "Whenever the values of all parameters satisfy the validators of the distribution's descriptor, the generator is built and a sample can be drawn without an exception.", "quantifier": "every distribution type, all parameter values accepted by the validators, every positive sample size", "why_tests_cant": "All combinations of parameter values; the exceptional ones are constraints between parameters.", "anchors": ["src/pysatl_criterion/distribution/distributions.py", "src/pysatl_criterion/distribution/validator.py", "src/pysatl_criterion/generator/generators.py", "src/pysatl_criterion/core/distributions"]}
{"id": "C113", "title": "sample moments", "statement": "moment(a, mom) is the raw moment of order mom, moment(a, mom, center) the moment about center, and central_moment(a, mom) the moment about the sample mean.", "quantifier": "every sample, every order, every centre", "why_tests_cant": "All samples and orders.", "anchors": ["src/pysatl_criterion/core/distributions/sample.py::moment", "src/pysatl_criterion/core/distributions/sample.py::central_moment"]}
{"id": "C114", "title": "probability plot criteria of normality are correlations", "statement": "The Filliben, Looney-Gulledge and Ryan-Joiner statistics are the correlation of the ordered sample with normal quantiles at the plotting positions of their definitions (exact medians at both ends; Blom; alpha in {1/2, 0, 3/8}, averaged over ties when weighted), Shapiro-Francia, Shapiro-Wilk and Rahman-Govindarajulu are squared correlations with their weights; all lie in [0, 1], and 1 is reached exactly when the ordered sample is an increasing affine function of the scores.", "quantifier": "every sample of two or more numbers that are not all equal (three or more for Shapiro-Wilk, four or more for Rahman-Govindarajulu, which give no value for fewer)", "why_tests_cant": "All samples; equality holds on a set of measure zero.", "anchors": ["src/pysatl_criterion/statistics/goodness_of_fit/normal.py::FilliNormalityGofStatistic", "src/pysatl_criterion/statistics/goodness_of_fit/normal.py::LooneyGulledgeNormalityGofStatistic", "src/pysatl_criterion/statistics/goodness_of_fit/normal.py::RyanJoinerNormalityGofStatistic", "src/pysatl_criterion/statistics/goodness_of_fit/normal.py::SFNormalityGofStatistic", "src/pysatl_criterion/statistics/goodness_of_fit/normal.py::ShapiroWilkNormalityGofStatistic", "src/pysatl_criterion/statistics/goodness_of_fit/normal.py::SWRGNormalityGofStatistic"]}
{"id": "C115", "title": "A normality criterion does not prefer a direction", "statement": "Reflecting a sample (changing the sign of every observation) changes the value of no normality criterion: the family of normal laws is closed under reflection, so a sample and its mirror image are equally normal. The one-sided Kolmogorov-Smirnov distances change places, and the Q* statistic of Zhang is his Q statistic of the mirror image.", "quantifier": "every sample of every size; every normality criterion of the package", "why_tests_cant": "A test reflects a few samples; the weights and plotting positions must be antisymmetric at every index and sample size, and ties must be handled alike from both ends.", "anchors": ["src/pysatl_criterion/statistics/goodness_of_fit/normal.py::SkewNormalityGofStatistic.skew_test", "src/pysatl_criterion/statistics/goodness_of_fit/normal.py::Hosking2NormalityGofStatistic.execute_statistic", "src/pysatl_criterion/statistics/goodness_of_fit/normal.py::RyanJoinerNormalityGofStatistic.execute_statistic", "src/pysatl_criterion/statistics/goodness_of_fit/normal.py::GlenLeemisBarrNormalityGofStatistic.execute_statistic", "src/pysatl_criterion/statistics/goodness_of_fit/normal.py::ZhangQStarNormalityGofStatistic.execute_statistic"]}
{"id": "C116", "title": "Censored Stein statistic weighs by the product-limit estimate", "statement": "For a sample on [0, 1] with censoring indicators, the censored Stein U statistic is the mean over pairs of uncensored observations of the kernel divided by the Kaplan-Meier (product-limit) survival estimates at the two observations; the estimates lie between 1/n and 1 there, so no weight is cut, and the value does not depend on the order in which the observations are listed.", "quantifier": "all samples of any size, all censoring patterns, all orders", "why_tests_cant": "Ties between censored and uncensored observations and the order of listing are rarely exercised; the weights can only be checked against an independent product-limit formula for every pattern.", "anchors": ["src/pysatl_criterion/statistics/goodness_of_fit/uniform.py::CensoredSteinUniformGofStatistic.execute_statistic", "src/pysatl_criterion/statistics/goodness_of_fit/uniform.py::CensoredSteinUniformGofStatistic._kaplan_meier"]}
{"id": "C117", "title": "Normality criteria measure spread and shape as documented", "statement": "Each shape criterion of normality is the published measure of the sample: Jarque-Bera n(skewness^2/6 + (kurtosis-3)^2/24); D'Agostino's D half of Gini's mean difference over the standard deviation; Bonett-Seier Geary's ratio; GMG and robust Jarque-Bera the mean deviation from the median; Bontemps-Meddahi sums of squared normalised Hermite moments; Chen-Shapiro and Zhang's Q and Q* ratios of average slopes of the normal plot, zero on a straight plot; Coin's statistic the squared cubic coefficient of the least squares fit on the normal scores; Martinez-Iglewicz the mean square deviation over the biweight variance; Spiegelhalter's combination of range and mean deviation; Desgagne-Lafaye de Micheaux a positive definite form of three scores.", "quantifier": "all samples of any size the criterion accepts", "why_tests_cant": "The code computes with sorted arrays, weights and running sums; that they amount to the published measure is an identity in the sample size and all observations.", "anchors": ["src/pysatl_criterion/statistics/goodness_of_fit/normal.py::JBNormalityGofStatistic.execute_statistic", "src/pysatl_criterion/statistics/goodness_of_fit/normal.py::DagostinoNormalityGofStatistic.execute_statistic", "src/pysatl_criterion/statistics/goodness_of_fit/normal.py::BonettSeierNormalityGofStatistic.stat17", "src/pysatl_criterion/statistics/goodness_of_fit/normal.py::GMGNormalityGofStatistic.stat33", "src/pysatl_criterion/statistics/goodness_of_fit/normal.py::RobustJarqueBeraNormalityGofStatistic.execute_statistic", "src/pysatl_criterion/statistics/goodness_of_fit/normal.py::BontempsMeddahi1NormalityGofStatistic.execute_statistic", "src/pysatl_criterion/statistics/goodness_of_fit/normal.py::BontempsMeddahi2NormalityGofStatistic.stat15", "src/pysatl_criterion/statistics/goodness_of_fit/normal.py::ChenShapiroNormalityGofStatistic.stat26", "src/pysatl_criterion/statistics/goodness_of_fit/normal.py::ZhangQNormalityGofStatistic.stat27", "src/pysatl_criterion/statistics/goodness_of_fit/normal.py::CoinNormalityGofStatistic.stat30", "src/pysatl_criterion/statistics/goodness_of_fit/normal.py::MartinezIglewiczNormalityGofStatistic.stat32", "src/pysatl_criterion/statistics/goodness_of_fit/normal.py::SpiegelhalterNormalityGofStatistic.stat41", "src/pysatl_criterion/statistics/goodness_of_fit/normal.py::DesgagneLafayeNormalityGofStatistic.stat35"]}
{"id": "C118", "title": "Skewness and kurtosis criteria order samples", "statement": "The skewness and kurtosis criteria are the normalising transforms of the sample skewness (D'Agostino) and of the sample kurtosis (Anscombe-Glynn): between samples of the same size, more skewness (kurtosis) gives a larger value, and the skewness criterion has the sign of the skewness. The D'Agostino-Pearson statistic is the sum of their squares, and that of Doornik-Hansen the sum of the squares of the skewness transform and of a Wilson-Hilferty transform.", "quantifier": "all samples of at least eight (five) observations, pairs of samples of the same size", "why_tests_cant": "Monotonicity over all samples; the failures are at exactly zero skewness and at kurtosis near its minimum for larger samples, which random tests do not draw.", "anchors": ["src/pysatl_criterion/statistics/goodness_of_fit/normal.py::SkewNormalityGofStatistic.skew_test", "src/pysatl_criterion/statistics/goodness_of_fit/normal.py::KurtosisNormalityGofStatistic.kurtosis_test", "src/pysatl_criterion/statistics/goodness_of_fit/normal.py::DAPNormalityGofStatistic.execute_statistic", "src/pysatl_criterion/statistics/goodness_of_fit/normal.py::DoornikHansenNormalityGofStatistic.doornik_hansen"]}
{"id": "C119", "title": "Beta criteria compare with the constants of the beta law", "statement": "The moment, skewness-kurtosis, ratio, entropy and mode criteria of the beta family compare a sample quantity with the same quantity of the beta law with the parameters given: expectation and variance, third and fourth standardised moments, ratio of geometric to arithmetic mean, differential entropy and place of the maximum of the density. The sample quantities are the unbiased variance, the ratios of k-statistics, Vasicek's estimate and the maximum of the kernel density estimate on the grid; the differences of the moment criterion are standardised.", "quantifier": "all parameters the constructors accept, all samples in [0, 1] with enough distinct observations, all sample sizes and windows", "why_tests_cant": "The constants are closed formulas with gamma and digamma functions; that they are the integrals they stand for is an identity in both parameters, which a test can only compare numerically at a few.", "anchors": ["src/pysatl_criterion/statistics/goodness_of_fit/beta.py::MomentBasedBetaGofStatistic.execute_statistic", "src/pysatl_criterion/statistics/goodness_of_fit/beta.py::SkewnessKurtosisBetaGofStatistic.execute_statistic", "src/pysatl_criterion/statistics/goodness_of_fit/beta.py::RatioBetaGofStatistic.execute_statistic", "src/pysatl_criterion/statistics/goodness_of_fit/beta.py::EntropyBetaGofStatistic.execute_statistic", "src/pysatl_criterion/statistics/goodness_of_fit/beta.py::ModeBetaGofStatistic.execute_statistic"]}
{"id": "C120", "title": "Anderson-Darling is the weighted integrated squared distance", "statement": "The Anderson-Darling statistic of every family is n times the integral over the unit interval of the squared difference between the empirical distribution function of the transformed observations and the identity, divided by u(1-u). For normality the law is the normal law with the sample mean and unbiased variance, for log-normality the same of the logarithms, otherwise the law of the hypothesis. The integral converges, the statistic is at least four times that of Cramer-von Mises, hence positive, and it is smallest for the midpoints (2i-1)/(2n) and only for them.", "quantifier": "all samples of any size at whose observations the distribution function is neither 0 nor 1, all parameters", "why_tests_cant": "The sum of logarithms in the code only equals the integral for the right weights and the right reversal of the second list at every sample size.", "anchors": ["src/pysatl_criterion/statistics/goodness_of_fit/common.py::ADStatistic.execute_statistic", "src/pysatl_criterion/statistics/goodness_of_fit/normal.py::AndersonDarlingNormalityGofStatistic.execute_statistic", "src/pysatl_criterion/statistics/goodness_of_fit/uniform.py::AndersonDarlingUniformGofStatistic.execute_statistic", "src/pysatl_criterion/statistics/goodness_of_fit/gamma.py::AndersonDarlingGammaGofStatistic.execute_statistic", "src/pysatl_criterion/statistics/goodness_of_fit/beta.py::AndersonDarlingBetaGofStatistic.execute_statistic", "src/pysatl_criterion/statistics/goodness_of_fit/student.py::AndersonDarlingStudentGofStatistic.execute_statistic", "src/pysatl_criterion/statistics/goodness_of_fit/log_normal.py::LogNormalClass.execute_statistic"]}
{"id": "C121", "title": "Sampling functions reject exactly the parameters their documentation excludes", "statement": "Every sampling function of core/distributions raises ValueError for exactly the parameters its documentation names (non-positive scale, rate, shape or degrees of freedom, negative variance, empty interval, contamination probability outside [0, 1]), whatever the size and the random choices, and otherwise returns a sample of the requested size. The distribution and density functions of the same modules raise ValueError for the same parameters.", "quantifier": "all 21 sampling functions, all real parameters, all sizes, all random choices", "why_tests_cant": "The parameters range over the real line and the border of each domain is a separate case; for mixtures the outcome also depends on the random choices.", "anchors": ["src/pysatl_criterion/core/distributions/norm.py::generate_norm", "src/pysatl_criterion/core/distributions/norm.py::cdf_norm", "src/pysatl_criterion/core/distributions/norm.py::pdf_norm", "src/pysatl_criterion/core/distributions/expon.py::generate_expon", "src/pysatl_criterion/core/distributions/expon.py::cdf_expon", "src/pysatl_criterion/core/distributions/gamma.py::generate_gamma", "src/pysatl_criterion/core/distributions/cauchy.py::generate_cauchy", "src/pysatl_criterion/core/distributions/uniform.py::generate_uniform", "src/pysatl_criterion/core/distributions/mix_con_norm.py::generate_mix_con_norm", "src/pysatl_criterion/core/distributions/scale_con_norm.py::generate_scale_con_norm", "src/pysatl_criterion/core/distributions/lo_con_norm.py::generate_lo_con_norm"]}
{"id": "C122", "title": "Sampled laws have the documented distribution functions", "statement": "Every observation returned by a sampling function of core/distributions has a probability law, and where the documented law has a distribution function in closed form (normal, log-normal, exponential, uniform, Cauchy, Laplace, logistic, Gumbel, Gompertz, inverse Gaussian, truncated normal, exponentiated Weibull) it has that one; for Tukey's lambda the quantile function inverts it. cdf_norm, pdf_norm, cdf_expon and the three Weibull functions with the same parameters are the distribution function, density, log-distribution and log-survival function of the samples, so that a sample transformed by them is uniform.", "quantifier": "all parameters in the documented domains with a law that is not concentrated in a point, all sizes, all points of evaluation, all random choices of the mixtures", "why_tests_cant": "Samples are random and the parameters real; a test can only compare frequencies for a few parameters.", "anchors": ["src/pysatl_criterion/core/distributions/norm.py::generate_norm", "src/pysatl_criterion/core/distributions/norm.py::cdf_norm", "src/pysatl_criterion/core/distributions/norm.py::pdf_norm", "src/pysatl_criterion/core/distributions/expon.py::generate_expon", "src/pysatl_criterion/core/distributions/expon.py::cdf_expon", "src/pysatl_criterion/core/distributions/weibull.py::generate_weibull", "src/pysatl_criterion/core/distributions/weibull.py::generate_weibull_cdf", "src/pysatl_criterion/core/distributions/weibull.py::generate_weibull_logcdf", "src/pysatl_criterion/core/distributions/weibull.py::generate_weibull_logsf", "src/pysatl_criterion/core/distributions/invgauss.py::generate_invgauss", "src/pysatl_criterion/core/distributions/truncnormal.py::generate_truncnorm", "src/pysatl_criterion/core/distributions/tukey.py::generate_tukey", "src/pysatl_criterion/core/distributions/student.py::generate_t"]}
{"id": "C123", "title": "Reference values simulated for one member of a family serve the whole family", "statement": "For every criterion of the composite hypotheses of normality, exponentiality and log-normality whose statistic does not change with location and scale (scale; power and scale of the observations), samples of any two members of the family give every set of outcomes of the statistic the same probability. Hence, with reference values simulated by the generator of one fixed member and data from any other member, the whole test by p-value with B simulated samples rejects the true hypothesis at level a with probability at most (floor(aB)+1)/(B+1) for one-tailed and 2(floor(aB/2)+1)/(B+1) for two-tailed criteria, provided that a statistic that rejects large values takes no single value with positive probability.", "quantifier": "all members of the three families, all sample sizes, all numbers of simulations, all levels, all orders of the registered generators", "why_tests_cant": "The claim is about probabilities over all samples and all simulated reference values; a simulation study only estimates them for single parameters.", "anchors": ["src/pysatl_criterion/hypothesis_testing/goodness_of_fit_test/goodness_of_fit_test.py::GoodnessOfFitTest.test", "src/pysatl_criterion/hypothesis_testing/limit_distribution/base.py::MonteCarloLimitDistributionResolver", "src/pysatl_criterion/statistics/goodness_of_fit/normal.py", "src/pysatl_criterion/statistics/goodness_of_fit/exponent.py", "src/pysatl_criterion/statistics/goodness_of_fit/log_normal.py"]}
{"id": "C124", "title": "The Weibull criteria are the functionals of the sample they are named after", "statement": "Each criterion for the Weibull family is the documented functional: ST1 and ST2 of skewness and kurtosis of the logarithms; Shapiro-Brain and Oeztuerk-Korukoglu of the linear estimate of the scale; Tiku-Singh, Mann-Scheuer-Fertig and Lockhart-O'Reilly-Stephens of spacings divided by the David-Johnson approximation of their expectations; Smith-Bain and REJG of the correlation in the probability plot; Liao-Shimokawa, Kullback-Leibler and Mahdi-Doostparast of the distance from the hypothetical distribution function; Cabana-Quiroz and LT2/LT3 of the Laplace transform of the logarithms.", "quantifier": "every positive sample of every length and every parameter a, k", "why_tests_cant": "the functionals are real-valued over arbitrary samples, with derivatives, integrals and order statistics in their definitions; a test compares a few numbers with a table", "anchors": ["src/pysatl_criterion/statistics/goodness_of_fit/weibull.py: SbWeibullGofStatistic, ST1WeibullGofStatistic, ST2WeibullGofStatistic, RSBWeibullGofStatistic, NormalizeSpaceWeibullGofStatistic, WPPWeibullGofStatistic, MahdiDoostparastWeibullGofStatistic, LiaoShimokawaWeibullGofStatistic, KullbackLeiblerWeibullGofStatistic, LaplaceTransformWeibullGofStatistic, CabanaQuirozWeibullGofStatistic"]}
{"id": "C125", "title": "The Monte Carlo test of a completely specified distribution keeps its level", "statement": "Test the hypothesis that independent observations have a given distribution of one of the families, with all its parameters named, using an empirical-distribution-function or spacing criterion, the p-value method and B simulated samples. If the hypothesis is true, the test at level alpha rejects with probability at most (floor(alpha*B)+1)/(B+1), twice that with alpha halved for two-tailed criteria.", "quantifier": "every family, every parameter value, every such criterion, every sample size, number of simulations and level", "why_tests_cant": "A probability over all samples and all simulated samples, for every parameter value.", "anchors": ["src/pysatl_criterion/statistics/goodness_of_fit/uniform.py", "src/pysatl_criterion/statistics/goodness_of_fit/weibull.py", "src/pysatl_criterion/statistics/goodness_of_fit/normal.py", "src/pysatl_criterion/statistics/goodness_of_fit/exponent.py", "src/pysatl_criterion/statistics/goodness_of_fit/gamma.py", "src/pysatl_criterion/statistics/goodness_of_fit/beta.py", "src/pysatl_criterion/statistics/goodness_of_fit/student.py", "src/pysatl_criterion/statistics/goodness_of_fit/log_normal.py", "src/pysatl_criterion/statistics/goodness_of_fit/common.py", "src/pysatl_criterion/hypothesis_testing/goodness_of_fit_test/goodness_of_fit_test.py::GoodnessOfFitTest.test", "src/pysatl_criterion/hypothesis_testing/limit_distribution/base.py::MonteCarloLimitDistributionResolver"]}
{"id": "C126", "title": "The test with simulated critical values keeps its level", "statement": "When the hypothesis is true, GoodnessOfFitTest with the critical value method and critical values from B Monte Carlo simulations rejects with probability at most (ceil(alpha (B-1)) + 1) / (B + 1), two-tailed criteria at most 2 (ceil(alpha (B-1) / 2) + 1) / (B + 1).", "quantifier": "every level between 0 and 1, number of simulations, sample size, parameter value of the family and every criterion covered by C123 and C125", "why_tests_cant": "A probability over all samples and all simulated samples; a simulation study estimates it for a few settings only.", "anchors": ["src/pysatl_criterion/hypothesis_testing/goodness_of_fit_test/goodness_of_fit_test.py: GoodnessOfFitTest, CriticalValueDecisionMethod", "src/pysatl_criterion/hypothesis_testing/critical_values/calculator/critical_value_calculator.py", "src/pysatl_criterion/hypothesis_testing/limit_distribution/base.py"]}
{"id": "C127", "title": "The corrections keep their guarantees in double precision arithmetic", "statement": "Computed in IEEE-754 double precision with rounding to nearest, the adjusted p-values of all five procedures still lie between the raw p-value and 1, keep the order of the raw p-values (ties stay exact ties), do not depend on the order in which the hypotheses are listed and do not decrease when p-values grow, Holm's are at most Bonferroni's, and Bonferroni controls the family-wise error rate at every threshold.", "quantifier": "every list of at most 2^53 double precision p-values in [0,1], every threshold, every procedure, every resolution of ties in rounding, every accuracy of log and sum at least 1 and 1/16", "why_tests_cant": "Rounding errors depend on every bit of every p-value; tests compare a few values up to a tolerance and never see exact ties or values near the unit round-off.", "anchors": ["src/pysatl_criterion/hypothesis_testing/multiple_testing/fwer.py", "src/pysatl_criterion/hypothesis_testing/multiple_testing/fdr.py", "src/pysatl_criterion/hypothesis_testing/multiple_testing/abstract_multiple_testing.py"]}
{"id": "C128", "title": "Decisions by p-value are those of exact counting", "statement": "Computed in IEEE-754 double precision, the p-value is in [0,1] and within 5*2^-54 of the exact fraction of simulated values beyond the statistic, and with a level a/b (rounded to the nearest double) the test rejects exactly when that fraction is at most a/b.", "quantifier": "every non-empty list of B simulated values, every statistic value, every alternative, every level a/b with B*b at most 2^51, every resolution of ties in rounding", "why_tests_cant": "The decision depends on the last bit of 1 - k/B; tests use a few values away from the border.", "anchors": ["src/pysatl_criterion/hypothesis_testing/p_value/calculator/p_value_calculator.py", "src/pysatl_criterion/hypothesis_testing/goodness_of_fit_test/goodness_of_fit_test.py: PValueDecisionMethod"]}
{"id": "C129", "title": "impossible samples have likelihood zero", "statement": "When no law of the family gives the sample a positive likelihood, likelihood_function_X returns 0: log-normal, exponential, Weibull, gamma, beta, chi-squared, Fisher, Rayleigh, Pareto, discrete uniform, Bernoulli, binomial, Poisson, geometric.", "quantifier": "every sample of real numbers with an observation outside the support", "why_tests_cant": "All samples and all parameters of the family.", "anchors": ["src/pysatl_criterion/estimation/maximum_likelihood/function_for_maximum_likelihood.py"]}
{"id": "C130", "title": "whole numbers given as floats", "statement": "The likelihood functions of the discrete families return the same for an array of floats as for the array of integers with the same values.", "quantifier": "every array of integers", "why_tests_cant": "All arrays.", "anchors": ["src/pysatl_criterion/estimation/maximum_likelihood/function_for_maximum_likelihood.py"]}
{"id": "C131", "title": "a criterion object reports the hypothesis it was built for", "statement": "Every object built from accepted arguments states a hypothesis (hypothesis() does not fail) that contains each parameter of the tested distribution given to the constructor, with the given value; the resolvers simulate and look up reference distributions with these parameters.", "quantifier": "every criterion class, generated ones included, every accepted combination of arguments", "why_tests_cant": "About 150 classes times all argument combinations; the tests build a few and evaluate the statistic without asking for the hypothesis.", "anchors": ["src/pysatl_criterion/statistics/goodness_of_fit/*.py: __init__, hypothesis", "src/pysatl_criterion/hypothesis_testing/limit_distribution/base.py: resolve"]}
{"id": "C132", "title": "criteria accept exactly the parameters of distributions", "statement": "A criterion object can be built with parameters of the tested distribution exactly when there is a distribution with these parameters (positive shapes, scales, rates, variance and degrees of freedom, non-empty interval); otherwise the constructor raises ValueError.", "quantifier": "every criterion class, all real parameter values", "why_tests_cant": "All real parameter values.", "anchors": ["src/pysatl_criterion/statistics/goodness_of_fit/*.py: __init__"]}
{"id": "C133", "title": "likelihood of samples without spread", "statement": "The likelihood functions return the documented special value exactly for the samples whose observations are all equal: 0 for the uniform, normal, log-normal, gamma, beta, Cauchy (also when the fitted scale is not positive), Student, Fisher and Wigner families, infinity for Pareto and Laplace; the exponential function returns 0 exactly when all observations are 0.", "quantifier": "every non-empty sample in the support of the family, every outcome of the numerical fits", "why_tests_cant": "All samples and all outcomes of the optimisers.", "anchors": ["src/pysatl_criterion/estimation/maximum_likelihood/function_for_maximum_likelihood.py"]}
{"id": "C134", "title": "one observation far away is the strongest evidence", "statement": "When one observation of a sample is moved away from the others without bound, a criterion of normality whose large values speak against normality tends to the largest value (possibly infinite) that it can take at that sample size: a gross error cannot make a sample look more normal.", "quantifier": "every sample size, every position of the other observations, every competing sample of the same size", "why_tests_cant": "a limit over unboundedly distant observations and a maximum over all samples; tests try a few fixed outliers", "anchors": ["src/pysatl_criterion/statistics/goodness_of_fit/normal.py: SkewNormalityGofStatistic, JBNormalityGofStatistic, GMGNormalityGofStatistic, MartinezIglewiczNormalityGofStatistic"]}
{"id": "C135", "title": "with enough data every wrong hypothesis is rejected", "statement": "A test of a fully specified hypothesis by Kolmogorov-Smirnov, Cramer-von Mises, Anderson-Darling, Kuiper or Watson is consistent: if the observations are independent and follow any law other than the hypothesised one, the probability that the Monte Carlo test rejects tends to one as the sample grows, at every level and for every number of simulated samples, whether the decision is taken by the p-value or by the critical value; a one-sided criterion does so for the laws that lie on its side.", "quantifier": "every law of the data, every hypothesised parameter, every level, every number of simulations", "why_tests_cant": "a limit over the sample size of probabilities, for every alternative law; simulations estimate the power at a few alternatives and sizes", "anchors": ["src/pysatl_criterion/statistics/goodness_of_fit/common.py: KSStatistic, ADStatistic, CrammerVonMisesStatistic, LillieforsTest", "src/pysatl_criterion/statistics/goodness_of_fit/uniform.py, weibull.py, gamma.py, beta.py, student.py, log_normal.py, normal.py, exponent.py", "src/pysatl_criterion/hypothesis_testing/alternative_factory/alternative_factories.py", "src/pysatl_criterion/hypothesis_testing/goodness_of_fit_test/goodness_of_fit_test.py"]}
{"id": "C136", "title": "criteria of exponentiality detect every law whose functional is not the exponential one", "statement": "The criteria of Cox and Oakes, Pietra, Gini, Atkinson, Epps and Pulley, Moran, WE, Shapiro and Wilk, Kochar (a mean with weights that depend on the rank), Lorenz (the share of the lowest part of the sample in the total), Gnedenko and Harris (the total time on test up to the median, or between the quartiles) and Wong and Wong (the ratio of the largest to the smallest observation) measure one scale-free functional of the sample; those of Deshpande, Hollander and Proschan, Ahsanullah and Rossberg count the pairs, triples or quadruples of observations with a property. If the observations are independent and positive and their law gives the functional (the probability of the counted property) another value than the exponential laws, the probability that the Monte Carlo test of exponentiality rejects tends to one as the sample grows, at every level and for every number of simulated samples, by p-values and by critical values.", "quantifier": "every law of positive observations for which the functional is finite, every rate used for the simulations, every level, every number of simulations", "why_tests_cant": "a limit over the sample size of probabilities, for every alternative law", "anchors": ["src/pysatl_criterion/statistics/goodness_of_fit/exponent.py: CoxOakesExponentialityGofStatistic, PietraExponentialityGofStatistic, GiniExponentialityGofStatistic, DeshpandeExponentialityGofStatistic, HollanderProshanExponentialityGofStatistic, AhsanullahExponentialityGofStatistic, AtkinsonExponentialityGofStatistic, EppsPulleyExponentialityGofStatistic, MoranExponentialityGofStatistic, WeExponentialityGofStatistic, ShapiroWilkExponentialityGofStatistic, KocharExponentialityGofStatistic, RossbergExponentialityGofStatistic, LorenzExponentialityGofStatistic, GnedenkoExponentialityGofStatistic, HarrisExponentialityGofStatistic, WongWongExponentialityGofStatistic", "src/pysatl_criterion/hypothesis_testing/alternative_factory/alternative_factories.py"]}
{"id": "C137", "title": "criteria of normality detect every law whose moments are not those of a normal law", "statement": "The criteria of Jarque and Bera, of the sample skewness, of the sample kurtosis, D'Agostino-Pearson, Doornik-Hansen and the first of Bontemps-Meddahi measure skewness and kurtosis, the second of Bontemps-Meddahi the standardised moments of the orders three to six, robust Jarque-Bera the third and fourth moments on the scale of the mean absolute deviation from the median, Bonett and Seier the ratio of standard deviation to mean absolute deviation, Gel, Miao and Gastwirth that to the mean absolute deviation from the median, Spiegelhalter the larger of the ratios of standard deviation to mean absolute deviation and (times 2e) to the width of the law, Martinez and Iglewicz the ratio of the mean square around the median to the square of a biweight scale, D'Agostino the ratio of the mean difference of two observations to the standard deviation, Lilliefors the whole distribution function and Epps and Pulley the whole characteristic function after standardisation; Looney and Gulledge, Ryan and Joiner, Shapiro and Francia and Filliben correlate the ordered sample with the quantiles of the normal law. If the observations are independent and their law, whatever its location and scale, gives the measured quantity another value than the normal laws (for Lilliefors, for Epps and Pulley and, among continuous laws, for the four correlations: if it is not a normal law), the probability that the Monte Carlo test of normality rejects tends to one as the sample grows, at every level and for every number of simulated samples, by p-values and by critical values.", "quantifier": "every law of the data with the moments that the criterion needs, every mean and variance used for the simulations, every level, every number of simulations", "why_tests_cant": "a limit over the sample size of probabilities, for every alternative law; simulations estimate the power at a few alternatives and sizes", "anchors": ["src/pysatl_criterion/statistics/goodness_of_fit/normal.py: JBNormalityGofStatistic, SkewNormalityGofStatistic, KurtosisNormalityGofStatistic, DAPNormalityGofStatistic, DoornikHansenNormalityGofStatistic, BontempsMeddahi1NormalityGofStatistic, BonettSeierNormalityGofStatistic, GMGNormalityGofStatistic, DagostinoNormalityGofStatistic, EppsPulleyNormalityGofStatistic, LillieforsNormalityGofStatistic, LooneyGulledgeNormalityGofStatistic, RyanJoinerNormalityGofStatistic, SFNormalityGofStatistic, FilliNormalityGofStatistic, SpiegelhalterNormalityGofStatistic, MartinezIglewiczNormalityGofStatistic, Hosking1NormalityGofStatistic, Hosking2NormalityGofStatistic, Hosking3NormalityGofStatistic, Hosking4NormalityGofStatistic, DesgagneLafayeNormalityGofStatistic", "src/pysatl_criterion/hypothesis_testing/alternative_factory/alternative_factories.py"]}
{"id": "C138", "title": "values of large samples follow the published limit laws", "statement": "Under the hypothesis the value of a criterion follows, for large samples, the law the literature and the documentation give: the standard normal law for the criteria of the sample skewness and the sample kurtosis, for Bonett and Seier, for D'Agostino and for the exponentiality criterion of Epps and Pulley, the chi-square law with two degrees of freedom for Jarque and Bera, robust Jarque-Bera, D'Agostino-Pearson, Doornik-Hansen and the first criterion of Bontemps and Meddahi, that with four degrees of freedom for their second; a user can compare the returned value with a table of that law. Precisely: the probability that the criterion returns a value of at most t tends to the probability the limit law gives to values of at most t.", "quantifier": "every t, every normal law (every mean and variance) or exponential law (every rate) of the data", "why_tests_cant": "a limit of probabilities over the sample size for every parameter; simulation cannot tell a slow drift of the values from convergence", "anchors": ["src/pysatl_criterion/statistics/goodness_of_fit/normal.py: SkewNormalityGofStatistic, KurtosisNormalityGofStatistic, JBNormalityGofStatistic, DAPNormalityGofStatistic, DoornikHansenNormalityGofStatistic, BontempsMeddahi1NormalityGofStatistic, BontempsMeddahi2NormalityGofStatistic, RobustJarqueBeraNormalityGofStatistic, BonettSeierNormalityGofStatistic, DagostinoNormalityGofStatistic", "src/pysatl_criterion/statistics/goodness_of_fit/exponent.py: EppsPulleyExponentialityGofStatistic", "docs/epps_pulley_exp_criterion.md"]}
{"id": "C139", "title": "tests do not decide about values that are not numbers", "statement": "A goodness-of-fit test and a correction for multiple testing report a decision only about numbers: if the statistic of the sample is NaN, if a simulated value is NaN or infinite, if a p-value is NaN or infinite, or if the level has no meaning, they raise ValueError or at least do not reject; an infinite statistic counts as the most extreme value.", "quantifier": "every statistic value, level and p-value that a float can be (finite, infinite or NaN), every list of simulated values, every alternative, both decision methods, the five corrections", "why_tests_cant": "all combinations of special values with every simulation and alternative; comparisons with NaN are silently false, so a test on ordinary numbers never sees them", "anchors": ["src/pysatl_criterion/hypothesis_testing/goodness_of_fit_test/goodness_of_fit_test.py", "src/pysatl_criterion/hypothesis_testing/critical_values/critical_area/critical_areas.py: contains", "src/pysatl_criterion/hypothesis_testing/p_value/calculator/p_value_calculator.py", "src/pysatl_criterion/hypothesis_testing/multiple_testing/abstract_multiple_testing.py", "src/pysatl_criterion/statistics/goodness_of_fit/normal.py: JBNormalityGofStatistic"]}
{"id": "C140", "title": "adjust accepts only probabilities", "statement": "For each of the five correction procedures adjust(p_values), which can be called without test, raises ValueError exactly when some p-value lies outside [0,1].", "quantifier": "every list of real numbers, each of the five procedures", "why_tests_cant": "all lists", "anchors": ["src/pysatl_criterion/hypothesis_testing/multiple_testing/fwer.py: adjust", "src/pysatl_criterion/hypothesis_testing/multiple_testing/fdr.py: adjust"]}
{"id": "C141", "title": "several processes can share one storage", "statement": "When several processes (or threads) insert (one by one or in batches), delete and look up distributions in one database at the same time, the table never holds a key twice and every row stays readable; a call that fails, or whose process dies in the middle of it, leaves no trace; the calls that succeed give the results they would give one after the other in the order of their completion, a batch counting as one call; and no call fails because another process is at work.", "quantifier": "every number of processes, every sequence of calls, every interleaving of their SQL statements, every crash point between statements", "why_tests_cant": "a test runs a handful of interleavings; the statements of insert_data and delete_data can be interleaved with those of other processes in unboundedly many ways", "anchors": ["src/pysatl_criterion/persistence/sqlalchemy/datastorage.py: AlchemyLimitDistributionStorage.insert_data, insert_bulk_data, delete_data, get_data, get_data_for_cv, get_bulk_data"]}
{"id": "C142", "title": "connecting is safe", "statement": "init succeeds exactly when the server answers and the table exists or can be created; otherwise it raises a ConnectionError and nothing else. create_safe never raises: it returns a storage exactly when the connection string is accepted and init succeeds, otherwise None. Neither ever changes stored distributions, and connecting again to an initialised storage changes nothing.", "quantifier": "every state of the server, every content of the table, every exception raised while connecting", "why_tests_cant": "a test tries one or two kinds of failure and an empty table", "anchors": ["src/pysatl_criterion/persistence/sqlalchemy/datastorage.py: AlchemyLimitDistributionStorage.__init__, init, create_safe"]}
{"id": "C143", "title": "rounding does not accumulate in distances between distribution functions", "statement": "In double precision, with every operation rounded to nearest and a distribution function computed with absolute error at most eps, the Kolmogorov-Smirnov statistics (two-tailed, right, left) are within eps + 2^-53 of the suprema they stand for, the Kuiper statistics within 2 eps + 2^-51, whatever the size of the sample; the Cramer-von Mises statistic, with its terms added in any order, is within n (3 eps + 2^-50 (1 + W)) of W.", "quantifier": "every non-empty sample, every continuous distribution function, every accuracy with which it is computed, every rounding of ties, every order of summation; n up to 2^40 for Cramer-von Mises", "why_tests_cant": "tests compare a few values with references to a few digits; the bound must hold for every sample and size", "anchors": ["src/pysatl_criterion/statistics/goodness_of_fit/common.py: KSStatistic, CrammerVonMisesStatistic", "src/pysatl_criterion/statistics/goodness_of_fit/uniform.py: Kuiper", "src/pysatl_criterion/statistics/goodness_of_fit/beta.py: Kuiper", "src/pysatl_criterion/statistics/goodness_of_fit/student.py: Kuiper", "src/pysatl_criterion/statistics/goodness_of_fit/gamma.py: Kuiper"]}
{"id": "C144", "title": "a shift that double precision represents exactly does not break a normality criterion", "statement": "If a normality criterion gives a number for a sample of doubles and all sums of the observations with a constant are doubles too (no rounding), it gives a number for the shifted sample as well.", "quantifier": "every sample of at least four doubles with positive variance, every constant for which the shift is exact, every rounding of ties; D'Agostino and Bontemps-Meddahi 1", "why_tests_cant": "whether cancellation makes the computed variance zero or negative depends on the digits of all observations", "anchors": ["src/pysatl_criterion/statistics/goodness_of_fit/normal.py: DagostinoNormalityGofStatistic, BontempsMeddahi1NormalityGofStatistic"]}
{"id": "C145", "title": "critical values survive rounding", "statement": "In double precision, with every operation of the calculators and of np.quantile rounded to nearest, the critical values for a level in [0,1] exist, are double precision numbers between the smallest and the largest simulated value, are monotone in the level (left ones increase, right ones decrease, a left one never exceeds its right one), and are within (n + 1) 2^-50 B of the values of exact arithmetic, where B bounds the n simulated values; what is rejected at one level is rejected at every larger level.", "quantifier": "every non-empty limit distribution of up to 2^53 doubles of size at most 2^899, every alternative, every level in [0,1], every rounding of ties", "why_tests_cant": "numpy interpolates by two formulas below and above weight one half; whether rounding breaks the order at the seam depends on the digits of the simulated values and of the level", "anchors": ["src/pysatl_criterion/hypothesis_testing/critical_values/calculator/critical_value_calculator.py", "src/pysatl_criterion/hypothesis_testing/goodness_of_fit_test/goodness_of_fit_test.py: CriticalValueDecisionMethod"]}
{"id": "C146", "title": "a few observations move a distance by no more than their share", "statement": "Two samples of n observations that differ in k places have Kolmogorov-Smirnov statistics (two-tailed, right, left) and Kuiper statistics at most k/n apart, and Cramer-von Mises statistics at most k (1 - 1/(2n))^2 apart; if every observation is recorded with an error that moves its probability level by at most eps, the Kolmogorov-Smirnov statistics move by at most eps, Kuiper's by at most 2 eps, and the root of the Cramer-von Mises statistic by at most sqrt(n) eps.", "quantifier": "every two samples of the same size, every number of replaced observations, every fully specified continuous distribution function (any distribution function for recording errors and Cramer-von Mises)", "why_tests_cant": "the statement compares every pair of samples; the worst pair depends on all other observations", "anchors": ["src/pysatl_criterion/statistics/goodness_of_fit/common.py: KSStatistic, CrammerVonMisesStatistic", "src/pysatl_criterion/statistics/goodness_of_fit/uniform.py: KuiperUniformGofStatistic"]}
{"id": "C147", "title": "criteria of exponentiality that compare the whole sample with an exponential law detect every other continuous law", "statement": "The Frozini and Kimber-Michael criteria of exponentiality compare the sorted observations with the exponential law that has the mean of the sample, the two criteria of Hegazy and Green with the exponential law of rate one. If the observations are independent and positive, their law is continuous with a finite mean and is not exponential, whatever the rate (for Hegazy and Green: not the exponential law of rate one, with which the reference values are simulated), the probability that the Monte Carlo test of exponentiality rejects tends to one as the sample grows, at every level and for every number of simulated samples, by p-values and by critical values.", "quantifier": "every continuous law of positive observations with a mean that is not exponential, every rate used for the simulations, every level, every number of simulations", "why_tests_cant": "A claim about a limit of probabilities over all laws of the data: tests see a few laws and a few sample sizes, and a criterion judged in the wrong tail returns the right numbers all the same.", "anchors": ["src/pysatl_criterion/statistics/goodness_of_fit/exponent.py: FroziniExponentialityGofStatistic, KimberMichaelExponentialityGofStatistic, HegazyGreen1ExponentialityGofStatistic, HegazyGreen2ExponentialityGofStatistic", "src/pysatl_criterion/hypothesis_testing/goodness_of_fit_test/goodness_of_fit_test.py"]}
{"id": "C148", "title": "criteria of log-normality detect exactly what the criteria of normality detect in the logarithms", "statement": "For observations that are positive and independent, a criterion of log-normality made from a criterion of normality rejects with exactly the probability with which that criterion rejects the normality of the logarithms, whatever the law of the observations, the parameters of the hypothesis, the parameters used for the simulations, the sample size, the number of simulations and the level, by p-values and by critical values. So it detects, or misses, a law in the long run exactly if the criterion of normality detects, or misses, the law of the logarithms: the versions of Lilliefors and of Epps and Pulley detect every positive law that is not log-normal and whose logarithms have a finite variance, those of Looney and Gulledge, Ryan and Joiner, Shapiro and Francia and Filliben every continuous one, those of Jarque and Bera, D'Agostino and Pearson, Doornik and Hansen and the first of Bontemps and Meddahi every one whose logarithms have a skewness other than zero or a kurtosis other than three; log-uniform laws are missed by the versions of the sample kurtosis and of Gel, Miao and Gastwirth, which look at the right tail only. The value itself has the law of the normality criterion's value for the logarithms; for large log-normal samples it follows the standard normal law for the sample skewness and kurtosis, the chi-square law with two degrees of freedom for Jarque and Bera, D'Agostino and Pearson, Doornik and Hansen and the first of Bontemps and Meddahi, with four for their second.", "quantifier": "every law of positive observations (with the moments of the logarithms that the criterion needs for the long run), every pair of parameters of the hypothesis and of the simulations, every sample size, level and number of simulations", "why_tests_cant": "equality of probabilities for all laws and limits over the sample size; a test compares two numbers for a few samples", "anchors": ["src/pysatl_criterion/statistics/goodness_of_fit/log_normal.py: _create_lognormal_class", "src/pysatl_criterion/statistics/goodness_of_fit/normal.py", "src/pysatl_criterion/hypothesis_testing/goodness_of_fit_test/goodness_of_fit_test.py"]}
{"id": "C149", "title": "power does not depend on the unit of measurement", "statement": "Recording the observations in other units changes neither the level nor the power of a test of a composite hypothesis: for every criterion of normality other than Kolmogorov-Smirnov and Cramer-von Mises the Monte Carlo test rejects observations a + b X (b positive) with exactly the probability with which it rejects X, whatever the law of X and whichever two normal laws are used to simulate the reference values, and for negative b too unless the criterion looks at one tail (sample skewness, Cabana-Cabana, Zhang's Q and Q*); likewise b X for positive X and every criterion of exponentiality other than Kolmogorov-Smirnov, Cramer-von Mises and Hegazy-Green, with any two exponential laws, and c X^b for positive X and the criteria of log-normality made from those of normality, with any two log-normal laws and any two hypotheses.", "quantifier": "every law of the data (positive for exponentiality and log-normality; without atoms for Epstein, whose statistic takes logarithms of differences), every change of units, every pair of parameters of the simulations, every sample size, level, number of simulations, p-values and critical values", "why_tests_cant": "equality of two probabilities for every law; simulation cannot establish equality", "anchors": ["src/pysatl_criterion/statistics/goodness_of_fit/normal.py", "src/pysatl_criterion/statistics/goodness_of_fit/exponent.py", "src/pysatl_criterion/statistics/goodness_of_fit/log_normal.py: _create_lognormal_class", "src/pysatl_criterion/hypothesis_testing/goodness_of_fit_test/goodness_of_fit_test.py"]}
{"id": "C150", "title": "a Kolmogorov-Smirnov test is decided by comparing distances", "statement": "With enough data the decision of a Kolmogorov-Smirnov criterion depends only on two distances: that of the distribution of the data, and that of the simulated distribution, from the distribution with which the criterion compares the sample (the hypothesised one; in the normal and exponential families the standard one). The two-tailed criterion rejects with probability tending to one if the distances differ. The right-tailed criterion rejects if the data are further away and does not reject if they are closer, the left-tailed one the other way round. The distance is the largest difference, excess or deficit of the distribution function.", "quantifier": "every continuous distribution of the data, every parameter value of the normal, exponential, log-normal, gamma and Student families, every alternative, both decision procedures, every level", "why_tests_cant": "a limit of probabilities for every distribution of the data", "anchors": ["src/pysatl_criterion/statistics/goodness_of_fit/common.py::KSStatistic", "src/pysatl_criterion/statistics/goodness_of_fit/normal.py, exponent.py, log_normal.py, gamma.py, student.py", "src/pysatl_criterion/hypothesis_testing/goodness_of_fit_test/goodness_of_fit_test.py::GoodnessOfFitTest.test", "src/pysatl_criterion/hypothesis_testing/limit_distribution/base.py::MonteCarloLimitDistributionResolver"]}
