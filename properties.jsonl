{"id": "C01", "title": "Censoring filter classifies every observation exactly", "statement": "DataHandling.filterCensoredData returns, as the uncensored inputs, exactly the input rows whose signal is strictly between the two thresholds; as the noisy inputs exactly the rows with signal <= noise threshold; as the saturated inputs exactly the rows with signal >= saturation threshold. When the noise threshold is below the saturation threshold and no signal is NaN, the three groups are a partition: the multiset of input rows is the disjoint sum of the three groups.", "quantifier": "every sample size, every input row content, every finite or infinite signal value, every pair noise < saturation", "why_tests_cant": "A test fixes one data set and two thresholds; the boundary cases (signal equal to a threshold, infinite signals, empty groups) are a continuum.", "anchors": ["otpod/_math_tools.py:DataHandling.filterCensoredData"]}
{"id": "C02", "title": "Censoring keeps each defect aligned with its own signal, in order", "statement": "The uncensored inputs and uncensored signals returned by filterCensoredData have the same length, and the i-th pair is an original (input, signal) pair; the sequence of pairs is a subsequence of the original one (relative order preserved), for arbitrary thresholds, missing thresholds included.", "quantifier": "every list of (input,signal) pairs, every pair of optional thresholds", "why_tests_cant": "Alignment of two separately masked arrays is a relation over all masks; a test checks only one mask.", "anchors": ["otpod/_math_tools.py:DataHandling.filterCensoredData"]}
{"id": "C03", "title": "A missing threshold means no censoring on that side", "statement": "Calling filterCensoredData with noiseThres=None (resp. saturationThres=None) puts no observation in the noisy (resp. saturated) group, and the uncensored group only depends on the other threshold.", "quantifier": "every sample, including extreme float values and infinities", "why_tests_cant": "The None case is implemented by substituting +-sys.float_info.max, which coincides with the intended meaning only away from extreme values that tests never use.", "anchors": ["otpod/_math_tools.py:DataHandling.filterCensoredData"]}
{"id": "C04", "title": "No observation is lost or counted twice, whatever the thresholds", "statement": "For every pair of thresholds the three groups returned by filterCensoredData contain each observation exactly once.", "quantifier": "every sample (NaN signals included) and every ordered or unordered pair of thresholds", "why_tests_cant": "Needs thresholds in the wrong order or NaN signals, which the test-suite never supplies; the failure is silent.", "anchors": ["otpod/_math_tools.py:DataHandling.filterCensoredData"]}
{"id": "C05", "title": "Starting-point search of the censored fit is bounded and fails exactly when no start works", "statement": "The maximum-likelihood fit draws at most 100 random starting points, draws none when the regression start has a finite likelihood, always hands the optimiser a start whose likelihood is not infinite, and raises if and only if the regression start and all tried random starts have infinite likelihood.", "quantifier": "every likelihood function, every sequence of random draws", "why_tests_cant": "Random draws; the boundary case (success on the very last draw) has negligible probability in tests.", "anchors": ["otpod/_math_tools.py:computeLinearParametersCensored"]}
{"id": "C06", "title": "The objective of the censored fit is the exact negative log-likelihood of the censored Gaussian regression", "statement": "For a positive residual scale the objective minimised for censored data equals minus the logarithm of: the product of Gaussian densities of the uncensored signals, times the Gaussian probabilities of falling below the noise threshold at the noisy defects, times those of exceeding the saturation threshold at the saturated defects. For a zero or negative scale it is +infinity, and it is never NaN, so the optimiser can never return a non-positive scale as a minimum.", "quantifier": "every parameter triple, every data set, every pair of thresholds", "why_tests_cant": "A likelihood identity over all real parameters; tests compare one fitted number.", "anchors": ["otpod/_math_tools.py:MLE"]}
{"id": "C07", "title": "The reported R2 is the coefficient of determination", "statement": "computeR2 equals 1 - SSR/SST for ordinary least-squares residuals, never exceeds 1 for any residuals, lies in [0,1] for least-squares residuals, and equals 1 exactly when the residuals are constant; it is undefined (division by zero) exactly for constant signals.", "quantifier": "every sample of at least two signals and residuals", "why_tests_cant": "Inequalities quantified over all data.", "anchors": ["otpod/_math_tools.py:computeR2"]}
{"id": "C08", "title": "The zero-mean residual test can detect something", "statement": "The zero-mean p-value reported by the analysis depends on the data. (For the uncensored ordinary least-squares residuals it does not: the statistic is always 0 and the p-value always 1.)", "quantifier": "every data set with non-constant defects and non-zero residual variance", "why_tests_cant": "A test can observe a p-value of 1 on one data set but not that it is 1 on all of them.", "anchors": ["otpod/_math_tools.py:computeZeroMeanTest", "otpod/_univariate_linear_model_analysis.py:UnivariateLinearModelAnalysis._computeTests"]}
{"id": "C09", "title": "Test statistics stay in their theoretical ranges", "statement": "The Harrison-McCabe statistic lies in [0,1], the Durbin-Watson statistic in [0,4], the studentised Breusch-Pagan statistic in [0,n], the statistic of the reversed residuals before the mirrored break is its complement to one, the break is the floor of the ratio times n, and the Harrison-McCabe p-value is a fraction in [0,1] of the simulation size that is monotone in the statistic.", "quantifier": "every residual vector that is not identically zero, every break ratio in (0,1), every simulated table", "why_tests_cant": "Universal inequalities (a Cauchy-Schwarz type bound and a projection bound).", "anchors": ["otpod/_math_tools.py:computeHarrisonMcCabeTest", "otpod/_math_tools.py:computeDurbinWatsonTest", "otpod/_math_tools.py:computeBreuschPaganTest"]}
{"id": "C10", "title": "One-sided Durbin-Watson p-values distinguish the two directions", "statement": "The p-value for 'Greater' is small when the statistic is far on one side of its mean and large when it is far on the other side, and conversely for 'Less'.", "quantifier": "every statistic value, mean and positive variance", "why_tests_cant": "The implementation uses the absolute deviation, so both directions give the same value; a single example cannot reveal a missing dependence on a sign.", "anchors": ["otpod/_math_tools.py:computeDurbinWatsonTest"]}
{"id": "C11", "title": "Durbin-Watson normal approximation uses the exact null moments", "statement": "The band matrix built from second differences equals A*X with A the first-difference Gram matrix, and the two trace quantities P and Q used for the mean and variance equal trace(MA) and trace(MAMA), M being the residual projector; hence the approximating mean is trace(MA)/(n-2).", "quantifier": "every n >= 3 and every non-constant defect sample", "why_tests_cant": "A matrix identity in every dimension n.", "anchors": ["otpod/_math_tools.py:computeDurbinWatsonTest"]}
{"id": "C12", "title": "POD constructors accept exactly the well-formed data", "statement": "Each constructor succeeds only if there are at least 3 observations, as many outputs as inputs, one output column and the dimension demanded by the method (1 for linear and quantile regression, >1 for kriging and adaptive kriging, any for chaos and hit-miss); otherwise it raises an AssertionError, checked in that order; on success the censoring flag is set iff at least one threshold is given, and the Box-Cox flag and parameter are those of the boxCox argument (never set for hit-miss).", "quantifier": "every shape of input and output sample and every combination of optional thresholds", "why_tests_cant": "Quantifies over all shapes and option combinations.", "anchors": ["otpod/_pod.py:POD.__init__", "otpod/_univariate_linear_model_pod.py:UnivariateLinearModelPOD.__init__", "otpod/_quantile_regression_pod.py:QuantileRegressionPOD.__init__", "otpod/_kriging_pod.py:KrigingPOD.__init__", "otpod/_adaptive_signal_pod.py:AdaptiveSignalPOD.__init__", "otpod/_polynomial_chaos_pod.py:PolynomialChaosPOD.__init__"]}
{"id": "C13", "title": "A user-supplied Box-Cox parameter is used", "statement": "When a float is passed as boxCox, the transformation used (and returned by getBoxCoxParameter) is that value, as documented.", "quantifier": "every float value and every data set", "why_tests_cant": "Documentation promise about all values; no test passes a float, and the value is silently replaced by an optimised one in every POD class.", "anchors": ["otpod/_pod.py:POD._run", "otpod/_univariate_linear_model_pod.py:_computeLinearModel", "otpod/_univariate_linear_model_analysis.py:UnivariateLinearModelAnalysis._run"]}
{"id": "C14", "title": "The Box-Cox transformation never changes a detection decision", "statement": "Whenever the shifted signal and the shifted detection threshold are positive, the transformed signal exceeds the transformed detection threshold iff the raw signal exceeds the raw threshold, for every Box-Cox exponent (zero included); likewise for noise and saturation thresholds.", "quantifier": "every real exponent, every pair of positive shifted values", "why_tests_cant": "Strict monotonicity of a one-parameter family of functions.", "anchors": ["otpod/_pod.py:POD._run", "otpod/_univariate_linear_model_pod.py:_computeLinearModel"]}
{"id": "C15", "title": "The automatic shift makes the data admissible for Box-Cox", "statement": "After the automatic shift every signal, the detection threshold and the censoring thresholds are strictly positive, so that the Box-Cox transformation is defined.", "quantifier": "every sample and thresholds", "why_tests_cant": "Fails only for special samples (a zero minimum, or thresholds more than 100 below the smallest signal), which a test would have to guess.", "anchors": ["otpod/_pod.py:POD._run", "otpod/_univariate_linear_model_pod.py:_computeLinearModel", "otpod/_univariate_linear_model_analysis.py:UnivariateLinearModelAnalysis._run"]}
{"id": "C16", "title": "computeDetectionSize returns a defect inside the search interval where the POD equals the requested level, or raises", "statement": "For a continuous POD model computeDetectionSize(p, c) raises iff p is not between the values of the POD at the two ends of the interval (or, when c is given, between those of the confidence curve); otherwise the returned size lies in the interval and the POD (resp. confidence curve) takes the value p there.", "quantifier": "every model, level and interval", "why_tests_cant": "Depends on arbitrary user curves and levels.", "anchors": ["otpod/_pod.py:POD._computeDetectionSize"]}
{"id": "C17", "title": "Detection size labels name the requested level", "statement": "The label attached to a detection size is 'a' followed by the percentage requested (and '/' the confidence percentage).", "quantifier": "every probability level and confidence level that is an integer percentage", "why_tests_cant": "Binary floating-point truncation only goes wrong for particular levels such as 0.29 or 0.57.", "anchors": ["otpod/_pod.py:POD._computeDetectionSize", "otpod/_pod_summary.py:PODSummary._buildPrintResults"]}
{"id": "C18", "title": "The detection size at a confidence level is never smaller than the one without", "statement": "If the confidence curve is everywhere below the POD curve and the POD curve is strictly increasing, the a_p/c size is at least the a_p size.", "quantifier": "every pair of curves and level for which both sizes are returned", "why_tests_cant": "Relation between two solver outputs for all curves.", "anchors": ["otpod/_pod.py:POD._computeDetectionSize"]}
{"id": "C19", "title": "The binomial POD is the fraction of residuals above the margin and increases with the defect", "statement": "With no residual hypothesis, POD(a) is the number of residuals strictly greater than detection - (intercept + slope*a) divided by the number of residuals; it lies in [0,1] and is non-decreasing in a when the slope is non-negative.", "quantifier": "every residual sample and every defect", "why_tests_cant": "Monotonicity over a continuum.", "anchors": ["otpod/_univariate_linear_model_pod.py:UnivariateLinearModelPOD._PODbinomialModel"]}
{"id": "C20", "title": "The binomial confidence curve is the exact Clopper-Pearson lower bound", "statement": "For n detections out of N at confidence level c the confidence POD is the value p for which observing at least n detections has probability 1-c under a binomial law.", "quantifier": "every N >= 1, every 0 <= n <= N, every level in (0,1)", "why_tests_cant": "An exact probabilistic identity for all counts.", "anchors": ["otpod/_univariate_linear_model_pod.py:UnivariateLinearModelPOD._PODbinomialModelCl"]}
{"id": "C21", "title": "The binomial confidence curve is a lower bound that tightens correctly", "statement": "The confidence POD never exceeds the POD itself for levels above 1/2, is non-decreasing in the number of detections, and is non-increasing in the confidence level.", "quantifier": "every N, n and levels", "why_tests_cant": "The all-detected special case uses a different formula that breaks monotonicity; tests look at one curve.", "anchors": ["otpod/_univariate_linear_model_pod.py:UnivariateLinearModelPOD._PODbinomialModelCl"]}
{"id": "C22", "title": "The Gaussian POD is the predictive probability of exceeding the threshold", "statement": "With Gaussian residuals POD(a) is the probability that a Gaussian variable of mean intercept+slope*a and variance stderr^2(1+h(a)) exceeds the threshold, with h(a) = 1/n + (a-mean)^2/Sxx >= 1/n; it is in (0,1), and equals 1/2 exactly where the regression line crosses the threshold.", "quantifier": "every defect sample with non-constant defects, every line, every positive stderr", "why_tests_cant": "Identity between the linear-algebra expression and the closed form, for all samples.", "anchors": ["otpod/_univariate_linear_model_pod.py:UnivariateLinearModelPOD._PODgaussModel"]}
{"id": "C23", "title": "The Gaussian POD increases with the defect size", "statement": "For a positive slope, the Gaussian POD is non-decreasing in the defect size.", "quantifier": "every pair of defect sizes", "why_tests_cant": "False far from the data (the prediction variance grows), true on an explicit region: needs a quantified analysis, not samples.", "anchors": ["otpod/_univariate_linear_model_pod.py:UnivariateLinearModelPOD._PODgaussModel"]}
{"id": "C24", "title": "Confidence curves are pointwise quantiles of the simulated curves", "statement": "The confidence POD at a defect lies between the smallest and largest simulated POD values there, has at most (1-c)N + 1/2 of the N simulated values strictly below it and at least (1-c)N - 1/2 not above it (also at each requested size for the metamodels), is non-increasing in the confidence level, and is in [0,1] when the simulated values are.", "quantifier": "every collection of simulated curves, every level", "why_tests_cant": "Quantified over all simulated collections and pairs of levels.", "anchors": ["otpod/_univariate_linear_model_pod.py:UnivariateLinearModelPOD.getPODCLModel", "otpod/_kriging_tools.py:KrigingBase.getPODCLModel"]}
{"id": "C25", "title": "Changing the simulation size after run is harmless", "statement": "After run(), calling setSimulationSize and evaluating the confidence curve still gives the curve of the simulations performed, or a clear error.", "quantifier": "every pair of sizes", "why_tests_cant": "Only visible for particular call orders; a larger size indexes past the list and a smaller one silently drops simulations.", "anchors": ["otpod/_univariate_linear_model_pod.py:UnivariateLinearModelPOD.getPODCLModel", "otpod/_pod.py:POD.setSimulationSize"]}
{"id": "C26", "title": "A POD built from an analysis only takes the detection threshold and reproduces the analysis data", "statement": "UnivariateLinearModelPOD(analysis=..., detection=...) raises AttributeError iff any other data argument is given or detection is missing; otherwise inputs, outputs, thresholds and residual factory are those of the analysis.", "quantifier": "every combination of optional arguments", "why_tests_cant": "A decision table over all combinations of present/absent arguments.", "anchors": ["otpod/_univariate_linear_model_pod.py:UnivariateLinearModelPOD.__init__"]}
{"id": "C27", "title": "The regression coefficients minimise the squared error", "statement": "Intercept and slope used by the uncensored linear POD and by the analysis minimise the residual sum of squares over all lines, uniquely when the defects are not all equal; residuals sum to zero and are orthogonal to the defects.", "quantifier": "every sample with non-constant defects, every competing line", "why_tests_cant": "Optimality over a two-parameter continuum.", "anchors": ["otpod/_univariate_linear_model_pod.py:_computeLinearModel", "otpod/_univariate_linear_model_analysis.py:UnivariateLinearModelAnalysis._run"]}
{"id": "C28", "title": "setQuantile stores a sorted list strictly inside (0,1) or changes nothing", "statement": "setQuantile either raises ValueError and leaves the quantiles unchanged, or stores the sorted values; after any sequence of calls the stored quantiles are sorted and all strictly between 0 and 1.", "quantifier": "every sequence of setQuantile calls with non-empty NaN-free arguments", "why_tests_cant": "An invariant over all call histories.", "anchors": ["otpod/_quantile_regression_pod.py:QuantileRegressionPOD.setQuantile", "otpod/_quantile_regression_pod.py:QuantileRegressionPOD.__init__"]}
{"id": "C29", "title": "The quantile-regression POD curve interpolates the solved defects and stays in range", "statement": "The POD curve starts at (0,0), passes through each (solved defect, quantile) pair, ends at (largest defect, largest quantile), takes values in [0, max quantile], and is non-decreasing, provided the solved defects are increasing.", "quantifier": "every set of solved defects and quantiles, every evaluation point", "why_tests_cant": "Property of an interpolant at every point of an interval.", "anchors": ["otpod/_quantile_regression_pod.py:QuantileRegressionPOD.run"]}
{"id": "C30", "title": "getBoxCoxParameter after a quantile-regression run is the parameter used for the data", "statement": "After run(), getBoxCoxParameter returns the exponent with which the returned POD curve was computed.", "quantifier": "every data set and every bootstrap sequence", "why_tests_cant": "The bootstrap overwrites the attribute; the discrepancy is random and small, invisible to an equality test at two digits.", "anchors": ["otpod/_quantile_regression_pod.py:QuantileRegressionPOD.run", "otpod/_pod.py:POD._run"]}
{"id": "C31", "title": "The quantile level whose fit is reported is the one used for the POD", "statement": "getR2(p) reports the goodness of fit of the regression used to compute the detection size at probability p.", "quantifier": "every level p different from 1/2", "why_tests_cant": "The POD at level p uses the regression at level 1-p while getR2 uses level p.", "anchors": ["otpod/_quantile_regression_pod.py:QuantileRegressionPOD.getR2", "otpod/_quantile_regression_pod.py:QuantileRegressionPOD.computeDetectionSize", "otpod/_pod_summary.py:PODSummary._buildPrintResults"]}
{"id": "C32", "title": "Accepted defect sizes are stored sorted and inside the data range", "statement": "When setDefectSizes returns normally the stored sizes are the given values in ascending order (as a multiset), the stored count is their number, and all lie within the range of the observed defects; it raises ValueError iff some value is outside that range.", "quantifier": "every non-empty list of finite sizes, all five classes with that setter", "why_tests_cant": "Quantified over all lists.", "anchors": ["otpod/_kriging_tools.py:KrigingBase.setDefectSizes", "otpod/_polynomial_chaos_pod.py:PolynomialChaosPOD.setDefectSizes", "otpod/_adaptive_hitmiss_pod.py:AdaptiveHitMissPOD.setDefectSizes", "otpod/_sobol_indices.py:SobolIndices.setDefectSizes", "otpod/_pli_pod.py:PLIBase.setDefectSizes"]}
{"id": "C33", "title": "A rejected setDefectSizes leaves the object unchanged", "statement": "When setDefectSizes raises, getDefectSizes still returns the previous sizes and the stored count still matches them.", "quantifier": "every state and every rejected argument; every history of calls", "why_tests_cant": "The assignment precedes the check in all five classes; tests only check that the exception is raised.", "anchors": ["otpod/_kriging_tools.py:KrigingBase.setDefectSizes", "otpod/_polynomial_chaos_pod.py:PolynomialChaosPOD.setDefectSizes", "otpod/_adaptive_hitmiss_pod.py:AdaptiveHitMissPOD.setDefectSizes", "otpod/_sobol_indices.py:SobolIndices.setDefectSizes", "otpod/_pli_pod.py:PLIBase.setDefectSizes"]}
{"id": "C34", "title": "Interpolated POD curves agree with the computed values and never leave their range", "statement": "The curve returned by getPODModel equals the mean simulated POD at each defect size, is linear in between, stays between the smallest and largest of these values, is non-decreasing if they are, and raises outside the interval of defect sizes.", "quantifier": "every increasing list of defect sizes, every list of values, every evaluation point", "why_tests_cant": "Quantified over the evaluation point.", "anchors": ["otpod/_kriging_pod.py:KrigingPOD.run", "otpod/_polynomial_chaos_pod.py:PolynomialChaosPOD.run", "otpod/_adaptive_hitmiss_pod.py:AdaptiveHitMissPOD.run", "otpod/_adaptive_signal_pod.py:AdaptiveSignalPOD.run"]}
{"id": "C35", "title": "The confidence curve always corresponds to the simulations performed", "statement": "getPODCLModel returns a curve whose value at each defect size used by run() is the quantile of the simulations made for that size.", "quantifier": "every history of run / setDefectSizes / getPODCLModel calls", "why_tests_cant": "setDefectSizes after run pairs the old simulations with new abscissae; needs a call history.", "anchors": ["otpod/_kriging_tools.py:KrigingBase.getPODCLModel", "otpod/_polynomial_chaos_pod.py:PolynomialChaosPOD.getPODCLModel", "otpod/_adaptive_hitmiss_pod.py:AdaptiveHitMissPOD.getPODCLModel"]}
{"id": "C36", "title": "Vectorised Monte-Carlo attributes each simulated value to the right defect size", "statement": "In the vectorised computation of the POD (chaos, hit-miss, adaptive criterion) the j-th returned value is exactly the Monte-Carlo average over the samples whose defect coordinate is the j-th defect size.", "quantifier": "every sampling size, number of defects, metamodel and sample", "why_tests_cant": "An index identity for a column-major reshape for all sizes.", "anchors": ["otpod/_polynomial_chaos_pod.py:PolynomialChaosPOD._computePOD", "otpod/_adaptive_hitmiss_pod.py:AdaptiveHitMissPOD._computePOD", "otpod/_adaptive_signal_pod.py:AdaptiveSignalPOD.run"]}
{"id": "C37", "title": "The kriging POD estimator law is a probability", "statement": "For each simulated trajectory the law of the POD estimator is Normal with mean p and variance p(1-p)/m when 0<p<1 and a point mass at 0 or 1 otherwise; simulated POD values and hence the confidence curve lie in [0,1].", "quantifier": "every simulated trajectory and every Monte-Carlo size", "why_tests_cant": "The Normal approximation leaks outside [0,1]; a test on a smooth case does not see it.", "anchors": ["otpod/_kriging_tools.py:KrigingBase._computePODSamplePerDefect"]}
{"id": "C38", "title": "The analytical leave-one-out predictions are the true ones", "statement": "Each value returned by the analytical leave-one-out formula is the universal-kriging prediction of the i-th observation from all the others (with the same covariance and trend functions): its weights reproduce the trend at the i-th point and satisfy the kriging system of the reduced data.", "quantifier": "every covariance matrix, trend matrix and observation vector for which the bordered matrix is invertible and the diagonal entries are non-zero", "why_tests_cant": "A linear-algebra identity in every dimension.", "anchors": ["otpod/_kriging_tools.py:KrigingBase._computeLOO"]}
{"id": "C39", "title": "Q2 is at most 1 and equals 1 exactly for perfect leave-one-out prediction", "statement": "The kriging Q2 is 1 minus the leave-one-out mean squared error over the (population) variance of the signals; it is at most 1 with equality iff every leave-one-out error is zero. The chaos Q2 uses the same definition.", "quantifier": "every sample with non-constant signals", "why_tests_cant": "Universal inequality, and a comparison between two normalisations (n versus n-1).", "anchors": ["otpod/_kriging_tools.py:KrigingBase._computeQ2", "otpod/_polynomial_chaos_pod.py:PolynomialChaosPOD.getQ2"]}
{"id": "C40", "title": "The chaos leave-one-out residual formula is exact for least squares", "statement": "For coefficients obtained by least squares, residual_i/(1-H_ii) is the error made on observation i by the least-squares fit on the other observations.", "quantifier": "every design matrix with invertible Gram matrix and leverage below one, every response", "why_tests_cant": "Linear-algebra identity in all dimensions.", "anchors": ["otpod/_polynomial_chaos_pod.py:PolynomialChaosPOD.getQ2"]}
{"id": "C41", "title": "Kriging normalises every input column", "statement": "The transformation applied before fitting maps the design to columns of mean zero and, when the column's standard deviation exceeds 1e-12, unit standard deviation; it is injective.", "quantifier": "every sample of at least two rows in every dimension", "why_tests_cant": "Universal over samples.", "anchors": ["otpod/_kriging_tools.py:KrigingBase._buildKrigingAlgo"]}
{"id": "C42", "title": "A user-provided metamodel result can be used to run the POD", "statement": "After setKrigingResult (resp. setPolynomialChaosResult) a call to run() builds the POD from that result.", "quantifier": "every valid result object and every object state", "why_tests_cant": "The failing branch (unbound variable, missing distribution) is never executed by the test-suite.", "anchors": ["otpod/_kriging_pod.py:KrigingPOD.setKrigingResult", "otpod/_kriging_pod.py:KrigingPOD.run", "otpod/_polynomial_chaos_pod.py:PolynomialChaosPOD.setPolynomialChaosResult", "otpod/_polynomial_chaos_pod.py:PolynomialChaosPOD.run"]}
{"id": "C43", "title": "Settings changed between two runs take effect in the next run", "statement": "Changing the degree (setDegree) or the defect sizes before run() makes the next run use the new setting (chaos basis size, default input distribution range).", "quantifier": "every history of setter and run calls", "why_tests_cant": "First-run caching of the strategy and of the distribution is only visible on the second run.", "anchors": ["otpod/_polynomial_chaos_pod.py:PolynomialChaosPOD._buildChaosAlgo", "otpod/_kriging_pod.py:KrigingPOD.run"]}
{"id": "C44", "title": "drawPOD only draws inside the computed range", "statement": "drawPOD raises ValueError iff a given bound lies outside the range of defect sizes; otherwise the drawn interval is contained in that range.", "quantifier": "every pair of optional bounds", "why_tests_cant": "Decision table over optional reals.", "anchors": ["otpod/_kriging_tools.py:KrigingBase.drawPOD", "otpod/_polynomial_chaos_pod.py:PolynomialChaosPOD.drawPOD", "otpod/_adaptive_hitmiss_pod.py:AdaptiveHitMissPOD.drawPOD", "otpod/_quantile_regression_pod.py:QuantileRegressionPOD.drawPOD"]}
{"id": "C45", "title": "Adaptive kriging adds exactly the requested number of distinct candidates", "statement": "A successful run of the adaptive signal POD adds exactly nMorePoints points to the design, each taken from the candidate design, never the same candidate twice, and each is the candidate minimising the criterion among the remaining ones.", "quantifier": "every candidate design, criterion and number of points not exceeding the number of candidates", "why_tests_cant": "Invariant over all iterations for arbitrary criteria.", "anchors": ["otpod/_adaptive_signal_pod.py:AdaptiveSignalPOD.run"]}
{"id": "C46", "title": "Adaptive kriging keeps inputs and outputs aligned", "statement": "At every moment, including after an exception of the physical model, each stored output is the (Box-Cox transformed) response of the physical model at the stored input of the same rank.", "quantifier": "every run, including runs interrupted by the physical model", "why_tests_cant": "Requires a failure of the user's code between two statements.", "anchors": ["otpod/_adaptive_signal_pod.py:AdaptiveSignalPOD.run"]}
{"id": "C47", "title": "The adaptive criterion uses the current kriging model", "statement": "In each iteration the reference POD and the predicted signal of a candidate are computed with the kriging model updated in the previous iteration.", "quantifier": "every iteration after the first", "why_tests_cant": "The prediction function is built once before the loop; the effect is a silent loss of efficiency.", "anchors": ["otpod/_adaptive_signal_pod.py:AdaptiveSignalPOD.run"]}
{"id": "C48", "title": "The best candidate is well defined in every iteration", "statement": "Each iteration selects a candidate on the basis of that iteration's criterion values; if no candidate is eligible (criterion NaN or above the initial bound, or no candidate left) the run fails with a clear error rather than reusing an earlier choice.", "quantifier": "every sequence of criterion values", "why_tests_cant": "Needs NaN criteria or exhausted candidates.", "anchors": ["otpod/_adaptive_signal_pod.py:AdaptiveSignalPOD.run"]}
{"id": "C49", "title": "getOutputDOE returns the physical signals", "statement": "After construction or run, getOutputDOE of the adaptive signal POD returns the raw (untransformed) signals of the design: undoing Box-Cox and the shift is exact.", "quantifier": "every sample and exponent for which the transformation is defined", "why_tests_cant": "Round trip over all reals and exponents.", "anchors": ["otpod/_adaptive_signal_pod.py:AdaptiveSignalPOD.getOutputDOE"]}
{"id": "C50", "title": "Adaptive hit-miss adds exactly the requested number of labelled points", "statement": "A successful hit-miss run extends the design by exactly nMorePoints points, keeps the initial points as a prefix, draws every new point from the candidates, and labels each new point with the physical model; the object can then be run again.", "quantifier": "every classifier behaviour, candidate set, number of points", "why_tests_cant": "Loop invariant with truncation in the last batch; arbitrary classifier.", "anchors": ["otpod/_adaptive_hitmiss_pod.py:AdaptiveHitMissPOD.run"]}
{"id": "C51", "title": "Selected hit-miss points have a predicted probability in the requested window", "statement": "Every point added in an iteration has a predicted probability at least pmin and strictly less than pmax, the batch being the minimum, quartiles and maximum of the eligible probabilities in ascending order.", "quantifier": "every probability vector and window", "why_tests_cant": "Quantified over vectors and windows.", "anchors": ["otpod/_adaptive_hitmiss_pod.py:AdaptiveHitMissPOD.run"]}
{"id": "C52", "title": "When no candidate is in the window the window is enlarged", "statement": "If no candidate has a probability in [pmin,pmax), the search window is enlarged so that points can still be added.", "quantifier": "every probability vector", "why_tests_cant": "The fallback window (below 0.1 and at least 0.8) is empty: the branch never helps and ends in an IndexError leaving the object unusable.", "anchors": ["otpod/_adaptive_hitmiss_pod.py:AdaptiveHitMissPOD.run"]}
{"id": "C53", "title": "Hit-miss enrichment does not evaluate the same candidate twice", "statement": "The points added in one batch are pairwise distinct candidates.", "quantifier": "every eligible set", "why_tests_cant": "Fails only when fewer than five candidates are eligible.", "anchors": ["otpod/_adaptive_hitmiss_pod.py:AdaptiveHitMissPOD.run"]}
{"id": "C54", "title": "The aggregated classifier returns probabilities", "statement": "For every input the aggregated classifier returns two numbers in [0,1] that sum to 1, whenever the two entries of the averaged confusion matrix differ; and it is the affine Bayes correction of the base classifier clipped to [0,1].", "quantifier": "every base probability and confusion entries", "why_tests_cant": "Universal over reals; the degenerate case divides by zero.", "anchors": ["otpod/_adaptive_hitmiss_pod.py:AdaptiveHitMissPOD.run"]}
{"id": "C55", "title": "The confusion matrix averages the successive classifiers", "statement": "After k iterations getConfusionMatrix is the average of the column-normalised confusion matrices of the k successive classifiers (the initial one and the aggregated ones built in earlier iterations), each column summing to 1.", "quantifier": "every sequence of classifiers and designs", "why_tests_cant": "Late binding makes all earlier aggregated classifiers evaluate with the latest parameters: the values differ only from the third iteration on.", "anchors": ["otpod/_adaptive_hitmiss_pod.py:AdaptiveHitMissPOD.run", "otpod/_adaptive_hitmiss_pod.py:AdaptiveHitMissPOD.getConfusionMatrix"]}
{"id": "C56", "title": "Hit-miss option setters validate and are atomic", "statement": "After any sequence of setPMin, setPMax, setClassifierType and setClassifierParameters calls the window bounds are in [0,1] with pmin < pmax, and the classifier type is 'rf' or 'svc' with parameters of the right shape; a rejected call changes nothing.", "quantifier": "every sequence of calls", "why_tests_cant": "Invariant over call histories.", "anchors": ["otpod/_adaptive_hitmiss_pod.py:AdaptiveHitMissPOD.setPMin", "otpod/_adaptive_hitmiss_pod.py:AdaptiveHitMissPOD.setPMax", "otpod/_adaptive_hitmiss_pod.py:AdaptiveHitMissPOD.setClassifierType"]}
{"id": "C57", "title": "The PLI index has the sign of the change, is zero at zero change and increases with the perturbed probability", "statement": "For positive original and perturbed probabilities the index is negative, zero or positive according to whether the perturbed probability is below, equal to or above the original, is strictly increasing in the perturbed probability, and is antisymmetric under exchange of the two probabilities.", "quantifier": "every pair of positive probabilities", "why_tests_cant": "Order properties over reals of a two-branch formula.", "anchors": ["otpod/_pli.py:PLI._computePLIndices"]}
{"id": "C58", "title": "No perturbation gives a null index", "statement": "If the perturbed mean (variance) equals the original one, the perturbed probability estimate equals the Monte-Carlo estimate and the index is 0.", "quantifier": "every sample with positive densities and every event", "why_tests_cant": "Exact cancellation for all samples; depends on the failure sample matching the event.", "anchors": ["otpod/_pli.py:PLI._computePfdelta", "otpod/_pli.py:PLIMeanBase._perturbedMarginalPDF", "otpod/_pli.py:PLIVarianceBase._perturbedMarginalPDF"]}
{"id": "C59", "title": "The failure sample is the set of points counted by the Monte-Carlo estimate", "statement": "The rows selected as failure sample are exactly those satisfying the event, for the operators Less, LessOrEqual, Greater, GreaterOrEqual; any other operator raises NameError.", "quantifier": "every output sample, threshold and operator", "why_tests_cant": "Ties with the threshold have probability zero for continuous outputs and are dropped for the OrEqual operators.", "anchors": ["otpod/_pli.py:PLI._getFailureSample"]}
{"id": "C60", "title": "The asymptotic variance of a PLI index is never negative", "statement": "With weights computed on the sample, the variance of the perturbed estimate is non-negative, the 2x2 covariance used is positive semi-definite, and the delta-method variance is non-negative, so the confidence interval exists.", "quantifier": "every sample, weights and failure set", "why_tests_cant": "A Cauchy-Schwarz inequality over all samples.", "anchors": ["otpod/_pli.py:PLI._computeVariancePfdelta", "otpod/_pli.py:PLI._computeEstimatorDistribution"]}
{"id": "C61", "title": "The mean-perturbed uniform density is a density with the requested mean", "statement": "For the solved tilting parameter, the perturbed Uniform marginal integrates to one over its range and has the requested mean; the perturbed Normal marginal is the Normal density with the requested mean and the original standard deviation.", "quantifier": "every interval and every admissible new mean", "why_tests_cant": "Integrals of exponential families for all parameters.", "anchors": ["otpod/_pli.py:PLIMeanBase._perturbedMarginalPDF"]}
{"id": "C62", "title": "The variance-perturbed densities are densities with the original mean and the requested variance", "statement": "At a stationary point of the dual problem the perturbed Uniform marginal integrates to one, keeps the mean and has the requested variance; the dual Hessian is positive semi-definite; the perturbed Normal is the Normal density with the original mean and the requested variance.", "quantifier": "every interval, multiplier and requested variance", "why_tests_cant": "Exponential-family identities over all parameters.", "anchors": ["otpod/_pli.py:PLIVarianceBase._perturbedMarginalPDF", "otpod/_pli.py:PLIVarianceBase.gradH", "otpod/_pli.py:PLIVarianceBase.hessianH"]}
{"id": "C63", "title": "Delta values are broadcast and scaled as documented", "statement": "A 1-d list of deltas is applied to every marginal, a 2-d list column by column; other shapes raise AttributeError; with sigmaScaled the new mean is mean + sigma*delta; with covScaled the new variance is (mean*delta + sigma)^2, i.e. the coefficient of variation increases by delta; non-positive variances are rejected when not scaled.", "quantifier": "every delta array and distribution moments", "why_tests_cant": "Shape and value identities for all arrays.", "anchors": ["otpod/_pli.py:PLI.__init__", "otpod/_pli.py:PLIMeanBase.__init__", "otpod/_pli.py:PLIVarianceBase.__init__", "otpod/_pli_pod.py:PLIVariance"]}
{"id": "C64", "title": "The Hellinger abscissa is a distance between the densities", "statement": "The value used as Hellinger abscissa lies in [0,2], is zero when the densities coincide, equals the integral of the squared difference of root densities, and has the sign of the perturbation.", "quantifier": "every pair of densities on the marginal's range", "why_tests_cant": "Integral inequality for all densities.", "anchors": ["otpod/_pli.py:PLI._computeHellinger", "otpod/_pli.py:PLI.drawIndices"]}
{"id": "C65", "title": "PLI indices are computed exactly for the defects with a non-degenerate probability", "statement": "After run(), getIndices has NaN exactly at the defects whose estimated probability is outside (0.001, 0.999); getPLIObject and drawIndices succeed exactly for the other defects and fail before run().", "quantifier": "every sequence of estimates; every history of run and setDefectSizes", "why_tests_cant": "The kept list is only rebuilt by run; after setDefectSizes it is stale and placeholders are returned.", "anchors": ["otpod/_pli_pod.py:PLIBase.run", "otpod/_pli_pod.py:PLIBase.getPLIObject", "otpod/_pli_pod.py:PLIBase.setDefectSizes"]}
{"id": "C66", "title": "getIndices slices the result cube consistently", "statement": "getIndices with any subset of the three selectors returns the corresponding slice of the full array: selecting afterwards in the returned array gives the same number as selecting all three at once.", "quantifier": "all eight combinations of selectors and all indices", "why_tests_cant": "Eight hand-written branches; each must agree with the cube for all indices.", "anchors": ["otpod/_pli_pod.py:PLIBase.getIndices"]}
{"id": "C67", "title": "Sobol analysis keeps exactly the defect sizes with varying POD, aligned with the outputs", "statement": "run() keeps exactly the output columns with non-zero variance over the first N rows, in order, together with the matching defect sizes; when all are constant it fails.", "quantifier": "every output design and every list of defect sizes reachable by accepted calls", "why_tests_cant": "Alignment of a column selection with a re-sorted list of sizes, for all designs.", "anchors": ["otpod/_sobol_indices.py:SobolIndices.run"]}
{"id": "C68", "title": "Sobol analysis of kriging uses the metamodel of the POD", "statement": "The aggregated POD function used for kriging evaluates the metamodel at the normalised input, exactly like the POD itself, and uses at each defect size the variance at that size; slightly negative variances are tolerated as documented.", "quantifier": "every kriging POD, every input point, every number of defect sizes", "why_tests_cant": "A dropped normalisation, a broadcasting slip and a tolerance test with the wrong sign all produce plausible numbers in [0,1].", "anchors": ["otpod/_sobol_indices.py:PODaggrKriging._exec"]}
{"id": "C69", "title": "Sobol analysis of chaos: point and sample evaluation agree", "statement": "Evaluating the aggregated chaos POD on a sample gives, row by row, the same function as evaluating it point by point (same law of the residual noise, same defect sizes, same layout).", "quantifier": "every sample, number of defects and simulation size", "why_tests_cant": "Index arithmetic over blocks; and the point version uses the defect sizes of the POD object rather than its own.", "anchors": ["otpod/_sobol_indices.py:PODaggrChaos._exec", "otpod/_sobol_indices.py:PODaggrChaos._exec_sample"]}
{"id": "C70", "title": "Summary: getters return the result of an active method that was run, and raise otherwise", "statement": "After any sequence of setMethodActive, run and getter calls, the getter of a method returns an object iff the method is active, was reached by some earlier run (active then, no exception before it), and (for kriging) the input has more than one column; the object is that of the last such run; otherwise it raises.", "quantifier": "every history of calls", "why_tests_cant": "A state machine over six flags and arbitrary histories.", "anchors": ["otpod/_pod_summary.py:PODSummary.setMethodActive", "otpod/_pod_summary.py:PODSummary.run", "otpod/_pod_summary.py:PODSummary.getLinearGaussPOD", "otpod/_pod_summary.py:PODSummary.getKrigingPOD"]}
{"id": "C71", "title": "Summary: the result table has one row per active method and never aborts because a detection size is missing", "statement": "The POD table contains, in a fixed order, exactly the rows of the active methods, with the computed sizes rounded to two digits, or -1 when the size cannot be computed; building the table does not raise.", "quantifier": "every activation state and every outcome of the size computations", "why_tests_cant": "Sixty-four activation states times arbitrary failures; a method activated after run breaks it.", "anchors": ["otpod/_pod_summary.py:PODSummary._buildPrintResults"]}
{"id": "C72", "title": "Summary: drawGraphs works with its default arguments", "statement": "drawGraphs() with default arguments draws the graphs of the active methods and skips those that cannot be drawn.", "quantifier": "every activation state and boxCox option", "why_tests_cant": "The default probability level None reaches an unprotected call when quantile regression is active; a float boxCox reaches an unprotected likelihood graph.", "anchors": ["otpod/_pod_summary.py:PODSummary.drawGraphs", "otpod/_quantile_regression_pod.py:QuantileRegressionPOD.drawLinearModel", "otpod/_univariate_linear_model_analysis.py:UnivariateLinearModelAnalysis.drawBoxCoxLikelihood"]}
{"id": "C73", "title": "Analysis: result table cells are next to their own label", "statement": "In the printed tables every censored value is in the row of the quantity it measures, whether or not data are censored.", "quantifier": "every value of the results and both censoring states", "why_tests_cant": "Hard-coded row numbers shifted by an insertion.", "anchors": ["otpod/_univariate_linear_model_analysis.py:UnivariateLinearModelAnalysis._buildPrintResults"]}
{"id": "C74", "title": "Analysis: accessors return one value per case", "statement": "Every result accessor returns one entry when data are not censored and two (uncensored, censored) otherwise, in that order, and the censored graphs are available iff data are censored.", "quantifier": "both states, every accessor and model name", "why_tests_cant": "Decision table over accessors and states.", "anchors": ["otpod/_univariate_linear_model_analysis.py:UnivariateLinearModelAnalysis._getResultValue", "otpod/_univariate_linear_model_analysis.py:UnivariateLinearModelAnalysis.drawLinearModel"]}
{"id": "C75", "title": "Analysis: warnings are issued exactly when a hypothesis test fails", "statement": "The warning about failed hypothesis tests is issued iff some p-value is below 0.05, suggests Box-Cox iff it is not enabled, and the third warning is issued iff the residual law is not Normal.", "quantifier": "every vector of p-values and every R2", "why_tests_cant": "The vector of tested values also contains R2, so a poor R2 triggers the message although all tests pass.", "anchors": ["otpod/_univariate_linear_model_analysis.py:UnivariateLinearModelAnalysis._printWarnings"]}
{"id": "C76", "title": "Progress bar: bounded, complete, and flushed at the end", "statement": "For 1 <= nIter and 0 <= i < nIter the bar text is produced only at the documented steps, its bar has exactly barLength characters, its percentage is at most 100, and the final call always prints 100% and 'Done'; between 1 and about 1.5*nFlush+1 updates are printed.", "quantifier": "every nIter, nFlush >= 1, barLength", "why_tests_cant": "Rounding half to even of a ratio for all integers.", "anchors": ["otpod/_progress_bar.py:updateProgress"]}
{"id": "C77", "title": "Validation graph shows all points", "statement": "The axis limits of the validation graph contain all plotted points.", "quantifier": "every target and prediction sample", "why_tests_cant": "The margins multiply by 0.99 and 1.01, which shrinks the range for negative values.", "anchors": ["otpod/_pod.py:POD._drawValidationGraph"]}
{"id": "C78", "title": "Inherited documentation is found along the class hierarchy", "statement": "A method decorated with the documentation-inheriting decorator exposes the docstring of the first parent (in method resolution order) that defines the underscored method, and raises NameError if there is none, both on the class and on an instance.", "quantifier": "every class hierarchy", "why_tests_cant": "Quantified over hierarchies; class and instance access use different code.", "anchors": ["otpod/_decorator.py:DocInherit"]}
{"id": "C79", "title": "Type-checked setters reject wrong values without side effects", "statement": "setVerbose, setGraphActive, setSensitivityMethod and setDistribution either store the value or raise the documented exception and leave the object unchanged, for every argument value.", "quantifier": "every argument of every type and every state", "why_tests_cant": "Quantifies over all argument values (e.g. 0/1 instead of booleans).", "anchors": ["otpod/_kriging_tools.py:KrigingBase.setVerbose", "otpod/_adaptive_signal_pod.py:AdaptiveSignalPOD.setGraphActive", "otpod/_sobol_indices.py:SobolIndices.setSensitivityMethod", "otpod/_sobol_indices.py:SobolIndices.setDistribution", "otpod/_pli_pod.py:PLIBase.setDistribution"]}
{"id": "C80", "title": "Sensitivity analyses accept the POD classes they document", "statement": "SobolIndices and the PLI classes can be built from a KrigingPOD, an AdaptiveSignalPOD or a PolynomialChaosPOD after run(), with at least two parameters besides the defect, and reject any other class.", "quantifier": "every class name, run state and dimension", "why_tests_cant": "The adaptive POD never stores the normalisation that the PLI constructor reads.", "anchors": ["otpod/_pli_pod.py:PLIBase.__init__", "otpod/_sobol_indices.py:SobolIndices.__init__", "otpod/_adaptive_signal_pod.py:AdaptiveSignalPOD.run", "otpod/_kriging_tools.py:KrigingBase.drawValidationGraph"]}
{"id": "C81", "title": "A POD model is fitted on at least three observations", "statement": "If the constructor accepts the data, the model is fitted on at least three observations: the documented minimum also holds for what remains after removing censored observations.", "quantifier": "every sample and pair of thresholds", "why_tests_cant": "The size is checked before the censored observations are removed; which data make the difference depends on all signals.", "anchors": ["otpod/_pod.py:POD.__init__", "otpod/_pod.py:POD._run", "otpod/_kriging_pod.py:KrigingPOD.__init__"]}
{"id": "C82", "title": "Changing the quantiles after a run does not corrupt the confidence curve", "statement": "After run(), calling setQuantile and then getPODCLModel either gives the curve of the levels simulated by run() or raises: the simulated defect sizes are never attributed to other levels.", "quantifier": "every run, every new list of quantiles and every confidence level", "why_tests_cant": "Depends on the order of calls; with an equal number of levels nothing raises.", "anchors": ["otpod/_quantile_regression_pod.py:QuantileRegressionPOD.setQuantile", "otpod/_quantile_regression_pod.py:QuantileRegressionPOD.getPODCLModel"]}
{"id": "C83", "title": "Quantile-regression detection sizes solve the regression line", "statement": "computeDetectionSize(p) of the quantile regression POD returns a defect of the observed range at which the regression line of level 1-p equals the detection threshold; it raises exactly when that line is strictly above or strictly below the threshold at both ends of the range.", "quantifier": "every fitted line, threshold, range and probability level", "why_tests_cant": "Continuum of lines and levels.", "anchors": ["otpod/_quantile_regression_pod.py:QuantileRegressionPOD.computeDetectionSize", "otpod/_quantile_regression_pod.py:QuantileRegressionPOD._buildModel"]}
{"id": "C84", "title": "Simulated kriging trajectories follow the posterior law", "statement": "The simulated outputs used for the POD have, at every pair of points, the mean and the covariance of the conditioned Gaussian process.", "quantifier": "every conditioned process (mean vector and covariance matrix) and every pair of points", "why_tests_cant": "The marginals are right; only the joint law over all pairs of points shows the dependence structure.", "anchors": ["otpod/_kriging_tools.py:KrigingBase._randomVectorSampling", "otpod/_kriging_tools.py:KrigingBase._computePODSamplePerDefect"]}
{"id": "C85", "title": "The quantile regression POD does not decrease", "statement": "The POD curve and the POD curve at a confidence level built by quantile regression are non-decreasing functions of the defect size on the observed range.", "quantifier": "every set of regression lines and every bootstrap collection", "why_tests_cant": "Regression lines of different levels may cross; interpolation then silently reorders the support points.", "anchors": ["otpod/_quantile_regression_pod.py:QuantileRegressionPOD.run", "otpod/_quantile_regression_pod.py:QuantileRegressionPOD.getPODCLModel"]}
{"id": "C86", "title": "Sobol plots pair each size with its own indices", "statement": "drawFirstOrderIndices and drawTotalOrderIndices plot, for each current defect size, the indices computed for that size.", "quantifier": "every history of setDefectSizes and run, every output design", "why_tests_cant": "The plot reads two attributes that are updated by different calls; only a particular order of calls separates them.", "anchors": ["otpod/_sobol_indices.py:SobolIndices._drawIndices", "otpod/_sobol_indices.py:SobolIndices.setDefectSizes"]}
{"id": "C87", "title": "Summary table: the header of the detection sizes shows the requested levels", "statement": "The header of the POD table of the summary for probability level p and confidence level c shows 100p and 100c, also for levels that are not whole percents.", "quantifier": "every level in (0, 1), real or double precision", "why_tests_cant": "Truncation of a product; a suite uses 0.9 and 0.95, for which it happens to be exact.", "anchors": ["otpod/_pod_summary.py:PODSummary._buildPrintResults", "otpod/_pod.py:POD._computeDetectionSize"]}
{"id": "C88", "title": "Summary: every section title of the saved file is a line of its own", "statement": "In the file written by saveResults each of the four section titles is on its own line, followed by a blank line and the rows of its table.", "quantifier": "every content of the four tables", "why_tests_cant": "Files are compared neither byte for byte nor line by line; the fault is an absent separator before one of four titles.", "anchors": ["otpod/_pod_summary.py:PODSummary.saveResults"]}
{"id": "C89", "title": "The adaptive criterion measures the mean squared distance to the reference POD", "statement": "The criterion of AdaptiveSignalPOD for one candidate lies between the root of the mean squared deviation of the simulated POD values from the reference POD and sqrt(2) times it; it is zero exactly when all simulated values equal the reference; it is bounded, so the selection of the best candidate always succeeds; the reference POD is the fraction of predictions above the threshold.", "quantifier": "every simulated sample, defect size list, Monte Carlo size and reference POD in [0, 1]", "why_tests_cant": "The value is a root of a sum of a variance and a squared bias over random samples; a test only sees one realisation.", "anchors": ["otpod/_adaptive_signal_pod.py:AdaptiveSignalPOD.run"]}
{"id": "C90", "title": "drawPOD shows the requested curves and marks the detection sizes", "statement": "The figure of drawPOD shows the POD and, if a confidence level is given, the curve at this level. With a probability level p it has a horizontal line at p and one vertical line per curve at a size where this curve is p; drawing raises exactly when p is not reached by one of the curves on the range of sizes.", "quantifier": "every continuous curve, range, probability level and confidence level, every root finder meeting its contract", "why_tests_cant": "Continuum of curves; figures are compared by eye.", "anchors": ["otpod/_pod.py:POD._drawPOD", "otpod/_kriging_tools.py:KrigingBase.drawPOD"]}
{"id": "C91", "title": "The marks of drawPOD are inside the drawn interval", "statement": "Every vertical line drawn for a detection size is between the bounds of the horizontal axis of the figure.", "quantifier": "every curve, every pair of bounds given by the user", "why_tests_cant": "Needs bounds for which the level is reached only outside of them.", "anchors": ["otpod/_kriging_tools.py:KrigingBase.drawPOD"]}
{"id": "C92", "title": "Displaying the graphs does not change the adaptive run", "statement": "setGraphActive only changes what is displayed: the run ends with the same result and the same attributes as without graphs.", "quantifier": "every run of the adaptive enrichment, every probability level, every number of iterations", "why_tests_cant": "Depends on the POD reached at intermediate iterations.", "anchors": ["otpod/_adaptive_signal_pod.py:AdaptiveSignalPOD.run", "otpod/_adaptive_signal_pod.py:AdaptiveSignalPOD.setGraphActive"]}
{"id": "C93", "title": "A POD built from an analysis works on the linear model of the analysis", "statement": "UnivariateLinearModelPOD(analysis=..., detection=...).run() uses the transformed observations, the Box-Cox parameter and the line (intercept, slope, standard error, residuals) of the analysis.", "quantifier": "every data set, censoring thresholds and Box-Cox argument of the analysis, every optimiser", "why_tests_cant": "The two classes recompute the model separately; a suite never compares them for every option.", "anchors": ["otpod/_univariate_linear_model_pod.py:_computeLinearModel", "otpod/_univariate_linear_model_pod.py:UnivariateLinearModelPOD.__init__", "otpod/_univariate_linear_model_analysis.py:UnivariateLinearModelAnalysis._run"]}
{"id": "C94", "title": "The linear-model POD does not depend on the units of measurement", "statement": "Applying an affine change of scale to the defects (any nonzero factor) and an increasing one to the signals and the detection threshold leaves the Gaussian POD, the binomial POD and the binomial confidence curve unchanged at corresponding sizes.", "quantifier": "every data set, change of scale, threshold, size and confidence level", "why_tests_cant": "A relation between two runs for infinitely many data sets.", "anchors": ["otpod/_univariate_linear_model_pod.py:UnivariateLinearModelPOD._PODgaussModel", "otpod/_univariate_linear_model_pod.py:UnivariateLinearModelPOD._PODbinomialModel", "otpod/_univariate_linear_model_pod.py:UnivariateLinearModelPOD._PODbinomialModelCl"]}
{"id": "C95", "title": "The estimate of the residual variance is unbiased", "statement": "When the signals are a combination of the regressors plus white noise of variance s2, the expectation of the square of the standard error used for the POD is s2 (linear model and polynomial chaos).", "quantifier": "every design, coefficients and white noise law", "why_tests_cant": "A statement about an expectation; the difference is of relative order 1/n.", "anchors": ["otpod/_univariate_linear_model_pod.py:_computeLinearModel", "otpod/_polynomial_chaos_pod.py:PolynomialChaosPOD.run"]}
{"id": "C96", "title": "The simulations of the confidence band are independent", "statement": "The coefficient vectors simulated for the confidence curves are independent of each other (linear model and polynomial chaos).", "quantifier": "every fitted model, every law of the draws, every pair of simulations", "why_tests_cant": "Dependence between simulations is invisible in each of them and in their marginal law.", "anchors": ["otpod/_univariate_linear_model_pod.py:UnivariateLinearModelPOD._PODgaussModelCl", "otpod/_polynomial_chaos_pod.py:PolynomialChaosPOD.run"]}
{"id": "C97", "title": "PLI confidence intervals have the requested mass and grow with the level", "statement": "computeConfidenceInterval returns, per marginal and delta, an interval centred at the index, whose probability under the asymptotic Gaussian law of the index is the requested level; a higher level gives a strictly larger interval.", "quantifier": "every table of indices and positive standard deviations, every pair of levels in (0, 1)", "why_tests_cant": "Exact mass of a Gaussian interval for every level; relation between two calls.", "anchors": ["otpod/_pli.py:PLI.computeConfidenceInterval"]}
{"id": "C98", "title": "PLI plot: one curve per marginal, each index at the abscissa of its own delta", "statement": "drawIndices draws one curve per marginal; its ordinates are the indices of this marginal in the order of the deltas, its abscissas the deltas or, if requested, the Hellinger distances of the deltas; the band is the confidence interval of the marginal; labels are used in order and a wrong number of labels raises.", "quantifier": "every list of deltas, labels, confidence level and index table", "why_tests_cant": "The plotted data are not examined by a test that shows a figure; the type of the deltas matters.", "anchors": ["otpod/_pli.py:PLI.drawIndices"]}
{"id": "C99", "title": "Contour plot of the PLI: each value is drawn at its defect size and its delta", "statement": "drawContourIndices draws the index of the k-th kept defect size and the i-th delta at this defect size (abscissa) and this delta (ordinate).", "quantifier": "every set of defect sizes and deltas, every list of kept sizes", "why_tests_cant": "The values are correct, only their position is wrong, and only for lists that are not equally spaced or not increasing.", "anchors": ["otpod/_pli_pod.py:PLIBase.drawContourIndices"]}
{"id": "C100", "title": "Each bootstrap curve is the POD of the resampled data", "statement": "For residual laws other than normal and binomial, run() stores one curve per simulation; the i-th one is the POD function obtained by running a fresh object with the same options on the i-th resample; each curve takes values in [0, 1] and is monotone; a resample equal to the data gives the POD itself. For the normal law there is one curve per coefficient draw and none is built for the binomial law.", "quantifier": "every data set, option, resample, residual law meeting its contract", "why_tests_cant": "Random resamples; a test sees a few quantiles of the collection.", "anchors": ["otpod/_univariate_linear_model_pod.py:UnivariateLinearModelPOD._PODbootstrapModelCl", "otpod/_univariate_linear_model_pod.py:UnivariateLinearModelPOD.run"]}
{"id": "C101", "title": "A bootstrap run on data that can be fitted does not abort", "statement": "When the POD itself can be computed, run() with a bootstrap law completes whatever the resamples are.", "quantifier": "every data set, option and list of resamples", "why_tests_cant": "Depends on rare resamples.", "anchors": ["otpod/_univariate_linear_model_pod.py:UnivariateLinearModelPOD._PODbootstrapModelCl", "otpod/_univariate_linear_model_pod.py:UnivariateLinearModelPOD.run"]}
{"id": "C102", "title": "The POD is computed under the joint law of the parameters given by the user", "statement": "For each defect size, the Monte Carlo points of the POD have this defect size and parameters following the law given to setDistribution, dependence included.", "quantifier": "every distribution of the inputs, every defect size", "why_tests_cant": "A statement about laws; the marginals are right so plots per variable look right.", "anchors": ["otpod/_kriging_tools.py:KrigingBase._computePODSamplePerDefect", "otpod/_polynomial_chaos_pod.py:PolynomialChaosPOD.run"]}
{"id": "C103", "title": "The PLI are computed for the probability displayed by the POD", "statement": "The failure probability perturbed by the PLI of a POD at a defect size is the POD at this size.", "quantifier": "every distribution, metamodel with its residual or kriging uncertainty, defect size and threshold", "why_tests_cant": "Both numbers are Monte Carlo estimates computed in different classes and never compared.", "anchors": ["otpod/_pli_pod.py:PLIBase._runMonteCarlo"]}
{"id": "C104", "title": "Without a distribution, run uses uniform laws over the observed ranges", "statement": "When setDistribution was not called, run() uses independent uniform laws: the requested defect sizes for the first input, the observed range of each other input; all data accepted by the constructor can be used this way.", "quantifier": "every data set, every list of defect sizes", "why_tests_cant": "Data with one constant parameter are legal but absent from the suite.", "anchors": ["otpod/_kriging_pod.py:KrigingPOD.run", "otpod/_polynomial_chaos_pod.py:PolynomialChaosPOD._buildChaosAlgo", "otpod/_adaptive_signal_pod.py:AdaptiveSignalPOD.run", "otpod/_adaptive_hitmiss_pod.py:AdaptiveHitMissPOD.run"]}
{"id": "C105", "title": "Hit-miss labels of the observations and of the added points follow the same rule", "statement": "With a detection threshold, the label of each observation says whether its signal exceeds the threshold and the label of each added point whether the physical model exceeds it there; the physical model is needed only to add points.", "quantifier": "every data set, censoring thresholds, detection threshold, physical model, classifier and number of points", "why_tests_cant": "Relates the constructor and all iterations of the run.", "anchors": ["otpod/_adaptive_hitmiss_pod.py:AdaptiveHitMissPOD.__init__", "otpod/_adaptive_hitmiss_pod.py:AdaptiveHitMissPOD.run"]}
{"id": "C106", "title": "PLI depend on the Monte-Carlo simulation only", "statement": "The perturbed probabilities and indices are computed from the points of the given Monte-Carlo simulation; an unperturbed law gives the probability of the simulation and index 0, whatever the performance function was evaluated at before.", "quantifier": "every simulation, every list of earlier evaluations, every Normal/Uniform law, event and marginal", "why_tests_cant": "Needs a shared memoized function with earlier evaluations; the tests use a fresh function.", "anchors": ["otpod/_pli.py:PLI.__init__", "otpod/_pli.py:PLI._getFailureSample", "otpod/_pli_pod.py:PLIBase._runMonteCarlo"]}
{"id": "C107", "title": "The perturbed probability is an unbiased estimate", "statement": "Over independent Monte-Carlo samples of the input law, the expectation of the perturbed probability computed by the PLI is the probability of the event under the law whose marginal has the perturbed density, for mean and variance perturbations of Normal and Uniform marginals.", "quantifier": "every dimension, sample size, measurable performance function, threshold, marginal and perturbation value", "why_tests_cant": "An expectation over all samples; tests see one seed.", "anchors": ["otpod/_pli.py:PLI._computePfdelta"]}
{"id": "C108", "title": "The simulated POD values are unbiased", "statement": "For every defect size the expectation of the POD value computed by simulation is the exact probability of detection of the metamodel at that size: chaos value plus normal residual (chaos), conditioned process (kriging), average of the classifier (hit-miss).", "quantifier": "every metamodel, law of the parameters, list of defect sizes, sample and simulation size, threshold", "why_tests_cant": "An expectation over all random draws; tests compare one seed with stored values.", "anchors": ["otpod/_polynomial_chaos_pod.py:PolynomialChaosPOD._computePOD", "otpod/_kriging_tools.py:KrigingBase._computePODSamplePerDefect", "otpod/_adaptive_hitmiss_pod.py:AdaptiveHitMissPOD._computePOD"]}
{"id": "C109", "title": "The simulated kriging PODs are at least as dispersed as the posterior ones", "statement": "The POD of a simulated kriging trajectory has the same expectation as under the exact posterior law of the process at the simulated points, and a variance that is not smaller, so the confidence band is never too optimistic because of the simulation.", "quantifier": "every conditional mean and variance, every joint law with these Gaussian marginals, every threshold and number of points", "why_tests_cant": "Compares laws, not values; the exact joint law is not computed by the code at all.", "anchors": ["otpod/_kriging_tools.py:KrigingBase._randomVectorSampling", "otpod/_kriging_tools.py:KrigingBase._computePODSamplePerDefect"]}
{"id": "C110", "title": "The kriging POD law adds the Monte-Carlo and the metamodel uncertainty", "statement": "The law from which the POD values of a defect size are drawn has as variance the mean of the Monte-Carlo variances p(1-p)/m plus the variance of the fractions p over the trajectories.", "quantifier": "every set of trajectories, threshold, number of trajectories and points", "why_tests_cant": "Property of a mixture law; tests look at quantiles of one sample.", "anchors": ["otpod/_kriging_tools.py:KrigingBase._computePODSamplePerDefect"]}
{"id": "C111", "title": "A chaos run without enough observations leaves no POD", "statement": "run() of the chaos POD completes exactly when there are at least two more observations than basis functions; otherwise it raises and no POD model is available.", "quantifier": "every number of observations and of basis functions, residuals, metamodel values and threshold", "why_tests_cant": "Nearly saturated bases are not in the suite, and the state after the exception is never looked at.", "anchors": ["otpod/_polynomial_chaos_pod.py:PolynomialChaosPOD.run", "otpod/_polynomial_chaos_pod.py:PolynomialChaosPOD.getPODModel"]}
{"id": "C112", "title": "The POD curve is the mean of the simulated POD curves", "statement": "For a given residual standard deviation, the POD at every defect size is the mean over the simulated coefficients of the POD curves used for the confidence band.", "quantifier": "every data set, threshold, defect size, coefficients and residual deviation; every normal law of the coefficients with the covariance of the design", "why_tests_cant": "Compares an average over an infinite number of curves with the closed formula; tests compare stored numbers.", "anchors": ["otpod/_univariate_linear_model_pod.py:UnivariateLinearModelPOD._PODgaussModel", "otpod/_univariate_linear_model_pod.py:UnivariateLinearModelPOD._PODgaussModelCl", "otpod/_polynomial_chaos_pod.py:PolynomialChaosPOD.run"]}
{"id": "C113", "title": "Simulated coefficients have the sampling covariance of the least squares estimate", "statement": "The errors of the fitted coefficients have covariance (residual variance) times the inverse Gram matrix; the coefficients drawn for the confidence band are normal around the fitted ones with exactly this covariance for the drawn residual variance.", "quantifier": "every design of full rank, true coefficients, white noise, linear combination of the coefficients", "why_tests_cant": "A statement on second moments over all noise realisations.", "anchors": ["otpod/_univariate_linear_model_pod.py:UnivariateLinearModelPOD._PODgaussModelCl", "otpod/_polynomial_chaos_pod.py:PolynomialChaosPOD.run"]}
{"id": "C114", "title": "Large enough defects are detected: every probability level below one is reached", "statement": "When the signal increases with the defect size, the POD curve tends to one, so that every probability level below one is reached by some defect size and the detection size exists on a large enough interval.", "quantifier": "every data set, slope > 0, threshold, residual law and probability level", "why_tests_cant": "About the behaviour at infinity; tests only ask for levels reached inside the data.", "anchors": ["otpod/_univariate_linear_model_pod.py:UnivariateLinearModelPOD._PODgaussModel", "otpod/_univariate_linear_model_pod.py:UnivariateLinearModelPOD._PODbinomialModel", "otpod/_univariate_linear_model_pod.py:UnivariateLinearModelPOD._PODgaussModelCl", "otpod/_pod.py:POD._computeDetectionSize"]}
{"id": "C115", "title": "The censored fit has a best solution", "statement": "The maximum likelihood objective of the censored model attains its minimum, at a positive standard error, whenever the uncensored data determine the line and do not lie on one; with an exact fit compatible with the censored data there is no best solution.", "quantifier": "every list of uncensored, noisy and saturated observations and every pair of thresholds", "why_tests_cant": "Existence of a global minimum over all parameters; tests compare the output of the optimiser on one data set.", "anchors": ["otpod/_math_tools.py:MLE", "otpod/_math_tools.py:computeLinearParametersCensored"]}
{"id": "C116", "title": "Thresholds that censor nothing do not change the fitted model", "statement": "Giving a noise threshold below all signals and a saturation threshold above all signals yields the same line, residuals, standard error and POD as giving no threshold.", "quantifier": "every data set that is not on a line, all thresholds outside the range of the signals, all random starts", "why_tests_cant": "A relation between two runs over all data; the suite never compares a censored with an uncensored run.", "anchors": ["otpod/_univariate_linear_model_pod.py:_computeLinearModel", "otpod/_math_tools.py:MLE", "otpod/_math_tools.py:computeLinearParametersCensored"]}
{"id": "C117", "title": "The results of the linear model do not depend on the order of the observations", "statement": "Giving the same observations in another order yields the same line, standard error, POD and confidence curves, and the same p-values of the residual tests.", "quantifier": "every list of observations and every permutation of it, with or without thresholds and Box-Cox", "why_tests_cant": "A relation between runs on all reorderings of the data; the suite uses one data file in one order.", "anchors": ["otpod/_univariate_linear_model_pod.py:_computeLinearModel", "otpod/_univariate_linear_model_pod.py:UnivariateLinearModelPOD._PODgaussModel", "otpod/_univariate_linear_model_pod.py:UnivariateLinearModelPOD._PODbinomialModel", "otpod/_math_tools.py:computeHarrisonMcCabeTest", "otpod/_math_tools.py:computeDurbinWatsonTest"]}
{"id": "C118", "title": "The error of a simulated POD value is controlled by the sampling sizes", "statement": "The POD value computed for a defect size is within eps of the POD of the metamodel with probability at least 1 - 1/(4 m eps^2) for m draws (chaos, hit-miss), and 1 - (1/n + 1/m)/(4 eps^2) for n trajectories at m inputs (kriging).", "quantifier": "every metamodel or classifier, law of the parameters, threshold, defect size, number of draws and eps > 0", "why_tests_cant": "A bound on probabilities over all samples, for all models.", "anchors": ["otpod/_polynomial_chaos_pod.py:PolynomialChaosPOD._computePOD", "otpod/_kriging_tools.py:KrigingBase._computePODSamplePerDefect", "otpod/_adaptive_hitmiss_pod.py:AdaptiveHitMissPOD._computePOD"]}
{"id": "C119", "title": "PLI estimates converge to the exact index", "statement": "As the number of simulated points grows, the failure probability, the perturbed probability and the PLI computed from them converge almost surely to the index of the exact probabilities.", "quantifier": "every dimension, marginal densities, perturbed marginal, performance function and threshold", "why_tests_cant": "Almost sure convergence; tests use one sample size with a fixed seed.", "anchors": ["otpod/_pli.py:PLI._getFailureSample", "otpod/_pli.py:PLI._computePfdelta", "otpod/_pli.py:PLI._computePLIndices"]}
{"id": "C120", "title": "The censored fit maximises the likelihood of the whole data set", "statement": "With thresholds, run() of UnivariateLinearModelPOD and the constructor of UnivariateLinearModelAnalysis fit their line on the signals strictly between the thresholds, transformed by Box-Cox together with the thresholds and the detection threshold when enabled; intercept, slope and standard error maximise the likelihood in which every observation of the data set counts exactly once: density for a kept signal, probability of being below or above the threshold for a censored one (signals equal to a threshold included). The uncensored fit of the analysis is the one it would give on the kept data without thresholds, and the residuals of each fit belong to its own line.", "quantifier": "every data set, thresholds with noise < saturation, Box-Cox option, random starts, exact optimisers", "why_tests_cant": "Optimality over a continuum of parameters and data; tests compare printed values of one data set.", "anchors": ["otpod/_univariate_linear_model_pod.py:_computeLinearModel", "otpod/_univariate_linear_model_analysis.py:UnivariateLinearModelAnalysis._run", "otpod/_math_tools.py:DataHandling.filterCensoredData", "otpod/_math_tools.py:computeLinearParametersCensored", "otpod/_math_tools.py:MLE"]}
{"id": "C121", "title": "Adaptive kriging estimates the covariance parameters again when the validation gets worse", "statement": "When the Q2 of the updated kriging model falls below 0.95 after a point was added, AdaptiveSignalPOD.run estimates the covariance parameters again and goes on, so that the run adds the requested number of points.", "quantifier": "every data set, number of iterations, candidate design, starting size, physical model and criterion", "why_tests_cant": "Needs a design for which the validation happens to drop below 0.95 during the enrichment; the shipped examples stay above.", "anchors": ["otpod/_adaptive_signal_pod.py:AdaptiveSignalPOD.run", "otpod/_kriging_tools.py:KrigingBase._estimKrigingTheta", "otpod/_kriging_tools.py:KrigingBase._buildKrigingAlgo"]}
{"id": "C122", "title": "The accessors describe the fitted kriging model", "statement": "After a run getCovarianceModel, getBasis and getQ2 return the covariance model, the trend basis and the validation of the kriging result that is used for the POD.", "quantifier": "every data set, initial covariance model and basis, starting size and history of fits", "why_tests_cant": "Tests only check that the accessors return an object.", "anchors": ["otpod/_kriging_tools.py:KrigingBase.getCovarianceModel", "otpod/_kriging_tools.py:KrigingBase._buildKrigingAlgo", "otpod/_kriging_pod.py:KrigingPOD.run", "otpod/_adaptive_signal_pod.py:AdaptiveSignalPOD.run"]}
{"id": "C123", "title": "The search for the covariance parameters honours the starting size and the bounds", "statement": "With a positive initialStartSize the covariance parameters are searched between 0.001 and 50 from exactly that many starting points inside these bounds and the estimates are inside; otherwise the covariance model keeps its parameters.", "quantifier": "every starting size (any integer), dimension, covariance model, basis and data set", "why_tests_cant": "Starting points and bounds are internal to the optimiser; tests only see one estimate.", "anchors": ["otpod/_kriging_tools.py:KrigingBase._estimKrigingTheta", "otpod/_kriging_tools.py:KrigingBase.setInitialStartSize", "otpod/_kriging_pod.py:KrigingPOD.run"]}
{"id": "C124", "title": "The kriging model does not depend on the units of measurement", "statement": "Expressing the input parameters in other units (positive factors and offsets) leaves the kriging predictions at corresponding points unchanged; expressing the signals in other units transforms the leave-one-out predictions accordingly and leaves Q2 unchanged; the amplitude of the covariance model has no influence on Q2.", "quantifier": "every design, regression routine, covariance matrix, trend with constants, change of units", "why_tests_cant": "A relation between two runs for infinitely many data sets and changes of scale.", "anchors": ["otpod/_kriging_tools.py:KrigingBase._buildKrigingAlgo", "otpod/_kriging_tools.py:KrigingBase._computeLOO", "otpod/_kriging_tools.py:KrigingBase._computeQ2"]}
{"id": "C125", "title": "The confidence intervals of the perturbation indices have the requested coverage for large samples", "statement": "For independent draws of the original law, the probability that the interval of level l returned by computeConfidenceInterval contains the exact index tends to l as the simulation size grows, provided that both probabilities are positive, the density ratio has a second moment on the event and is not constant there.", "quantifier": "every level in (0,1), marginal laws with densities, perturbed density dominated by the original one, limit state function, threshold, sequence of independent draws", "why_tests_cant": "A limit of probabilities over sample spaces; tests check one interval of one simulated sample.", "anchors": ["otpod/_pli.py:PLI.computeConfidenceInterval", "otpod/_pli.py:PLI._computePLIndices", "otpod/_pli.py:PLI._computeVariancePfdelta", "otpod/_pli.py:PLI.run"]}
{"id": "C126", "title": "The linear POD converges to the true probability of detection", "statement": "If the signals follow a line plus centred errors uncorrelated with the defects, then as the number of independent observations grows the fitted intercept, slope and standard error converge almost surely to the true ones; the Gaussian POD converges at every size to the probability that the line plus a Gaussian error of that standard deviation exceeds the threshold, and the binomial POD to the probability that the line plus the error exceeds the threshold, whatever the law of the errors, at every size where the error has no atom at the distance to the threshold.", "quantifier": "every true line, threshold, size, square-integrable law of (defect, error) with non-constant defects; no atom of the error at the margin for the binomial curve", "why_tests_cant": "Almost sure convergence over infinite samples; tests run on one data file.", "anchors": ["otpod/_univariate_linear_model_pod.py:_computeLinearModel", "otpod/_univariate_linear_model_pod.py:UnivariateLinearModelPOD._PODgaussModel", "otpod/_univariate_linear_model_pod.py:UnivariateLinearModelPOD._PODbinomialModel"]}
{"id": "C127", "title": "The confidence curve of the binomial POD is below the true POD with at least the requested probability", "statement": "For independent residuals around a known line, the value at a size of the binomial confidence curve of level c is at most the true probability of detection at this size with probability at least c.", "quantifier": "every number of residuals, law of the residuals, line, threshold, size, level in (0,1)", "why_tests_cant": "A probability over all samples; tests compare one value of the curve.", "anchors": ["otpod/_univariate_linear_model_pod.py:UnivariateLinearModelPOD._PODbinomialModelCl", "otpod/_univariate_linear_model_pod.py:UnivariateLinearModelPOD.getPODCLModel"]}
{"id": "C128", "title": "The confidence curve of the Gaussian linear POD covers the true POD with the requested probability", "statement": "If the signals follow a line plus independent centred Gaussian errors of unknown standard deviation, then at every size the value of the Gaussian confidence curve of level c is at most the true probability of detection with probability c, up to 3/2 divided by the number of simulations plus one, for every number of data points from three on; the probability tends to c as the number of simulations grows.", "quantifier": "every data size from 3, non-constant defects, line, error deviation, threshold, size, level in [0,1], number of simulations", "why_tests_cant": "A probability over all data sets and all simulations; tests compare one value for one seed.", "anchors": ["otpod/_univariate_linear_model_pod.py:UnivariateLinearModelPOD._PODgaussModelCl", "otpod/_univariate_linear_model_pod.py:UnivariateLinearModelPOD.getPODCLModel", "otpod/_univariate_linear_model_pod.py:UnivariateLinearModelPOD.run"]}
{"id": "C129", "title": "The defect size at a confidence level is conservative with that confidence", "statement": "UnivariateLinearModelPOD with Gaussian residuals on data y = b0 + b1 x + Gaussian error: let a_p be the size whose true probability of detection is p. The second size returned by computeDetectionSize(p, c) is smaller than a_p with probability at most 1 - c, and at least a_p with probability at most c, up to 3/2/(M+1) where M is the simulation size, among the runs where all simulated slopes are positive and the call returns.", "quantifier": "for all designs of at least 3 sizes that are not all equal, all coefficients, error levels, thresholds, probability levels, confidence levels in [0,1], simulation sizes M >= 1 and root finders that meet their contract", "why_tests_cant": "it is a statement about the joint law of the data and of the simulated draws, for every design and every simulation size; a test sees one data set and one seed", "anchors": ["otpod/_univariate_linear_model_pod.py:UnivariateLinearModelPOD.computeDetectionSize", "otpod/_univariate_linear_model_pod.py:UnivariateLinearModelPOD._PODgaussModelCl", "otpod/_pod.py:POD._computeDetectionSize"]}
{"id": "C130", "title": "The detection size of the linear POD converges to the true one", "statement": "UnivariateLinearModelPOD with Gaussian residuals, on independent observations of a linear model with increasing signal: with probability one, when the number of observations grows, computeDetectionSize(p) ends up never raising and its result converges to the size whose probability of detection is p, as soon as sizes below and above it can be observed.", "quantifier": "for all laws of defects and errors with finite variance (errors centred and uncorrelated with the defects, not necessarily bounded or Gaussian), all lines with positive slope, thresholds, probability levels and root finders that meet their contract", "why_tests_cant": "it is a limit over infinitely many observations, almost surely; a finite run cannot show it", "anchors": ["otpod/_univariate_linear_model_pod.py:UnivariateLinearModelPOD.computeDetectionSize", "otpod/_univariate_linear_model_pod.py:UnivariateLinearModelPOD._PODgaussModel", "otpod/_pod.py:POD._computeDetectionSize"]}
{"id": "C131", "title": "Each accessor returns the last accepted setting", "statement": "After any history of calls of the setters of a POD, summary or sensitivity object, each getter returns the last value accepted by its own setter, or the initial value: a setter never changes another setting and a rejected value changes nothing. The getters that have nothing to return yet print a message and return None.", "quantifier": "for all histories of calls with arguments of any kind, accepted or rejected, all observed ranges, dimensions and behaviours of the constructors of openturns", "why_tests_cant": "histories are unbounded and mix about fifteen setters; tests call each setter once on a fresh object", "anchors": ["otpod/_kriging_tools.py:KrigingBase.setBasis", "otpod/_kriging_tools.py:KrigingBase.getBasis", "otpod/_kriging_tools.py:KrigingBase.setDefectSizes", "otpod/_polynomial_chaos_pod.py:PolynomialChaosPOD.setAdaptiveStrategy", "otpod/_polynomial_chaos_pod.py:PolynomialChaosPOD.setDegree", "otpod/_adaptive_signal_pod.py:AdaptiveSignalPOD.setGraphActive", "otpod/_adaptive_hitmiss_pod.py:AdaptiveHitMissPOD.setCandidateSize", "otpod/_sobol_indices.py:SobolIndices.setSensitivityMethod", "otpod/_pli_pod.py:PLIBase.setGaussKronrod", "otpod/_pod_summary.py:PODSummary.setMethodActive"]}
{"id": "C132", "title": "Summary: a detection size that exists is shown", "statement": "When the POD curve of an active method reaches the probability level in the observed range, the table of the summary shows the rounded detection size in the column of that size; -1 is shown only in the columns whose size cannot be computed.", "quantifier": "every method, every curve and confidence curve, every level", "why_tests_cant": "Needs a confidence curve that stays below the level while the POD curve reaches it; the table then hides a computable size.", "anchors": ["otpod/_pod_summary.py:PODSummary._buildPrintResults", "otpod/_pod.py:POD._computeDetectionSize"]}
{"id": "C133", "title": "Summary: the text of the results is complete and its warning is right", "statement": "The text returned by getResults consists of the two titles, all rows of the two tables, each on its own line and in order, between lines of dashes, and of a last line with a warning that is present exactly when an active method uses filtered data and that names exactly these methods.", "quantifier": "every pair of tables without line breaks, every activation state, dimension and censoring state", "why_tests_cant": "The warning depends on the combination of censoring, activation of three methods and dimension; tests use all methods active.", "anchors": ["otpod/_pod_summary.py:PODSummary.getResults"]}
{"id": "C134", "title": "Summary: the methods run with the settings of the summary", "statement": "After any history of setVerbose, setSimulationSize, setSamplingSize, setMethodActive and run, an object returned by a getter was constructed by the last run that reached its method, with the detection threshold, noise and saturation thresholds and Box-Cox option of the summary, the right residual law and input columns, and ran with the last verbosity, number of simulations and sampling size accepted before this run (not with values set afterwards or rejected).", "quantifier": "every history, every outcome of the constructors and runs", "why_tests_cant": "Quantifies over interleavings of settings, activations, runs and failures.", "anchors": ["otpod/_pod_summary.py:PODSummary.run", "otpod/_pod_summary.py:PODSummary.setVerbose", "otpod/_pod_summary.py:PODSummary.setSimulationSize", "otpod/_pod_summary.py:PODSummary.setSamplingSize"]}
{"id": "C135", "title": "The perturbed densities are the closest ones in the sense of Kullback-Leibler", "statement": "As documented by the class PLI, the density obtained by a mean (variance) perturbation of a Normal or Uniform marginal is the closest to the original one, in the sense of the Kullback-Leibler divergence, among all laws with the requested mean (with the original mean and the requested variance): its divergence is finite, no such law has a smaller one, and equality holds for no other law.", "quantifier": "every Normal and Uniform marginal, every admissible new mean, every positive new variance, and every competing probability law on the line", "why_tests_cant": "The minimum is over all probability laws; a test can only compare with some.", "anchors": ["otpod/_pli.py:PLIMeanBase._perturbedMarginalPDF", "otpod/_pli.py:PLIVarianceBase._perturbedMarginalPDF", "otpod/_pli.py:PLIVarianceBase.optimizeLambda"]}
{"id": "C136", "title": "The hypothesis tests do not depend on the units of measurement", "statement": "The R2 and the p-values reported by UnivariateLinearModelAnalysis (normality, zero mean, Kolmogorov, Breusch-Pagan, Harrison-McCabe, Durbin-Watson) are the same when the defects undergo any affine change of unit and the signals any increasing affine change of unit, the law fitted to the residuals being rescaled with them; when the analysis fails on one data set it fails in the same way on the other.", "quantifier": "every data set, every affine change of the defects, every increasing affine change of the signals, every simulated reference sample", "why_tests_cant": "The claim relates two runs for a continuum of changes of unit, degenerate data (zero residuals, NaN) included.", "anchors": ["otpod/_univariate_linear_model_analysis.py:UnivariateLinearModelAnalysis._computeTests", "otpod/_math_tools.py:computeR2", "otpod/_math_tools.py:computeZeroMeanTest", "otpod/_math_tools.py:computeBreuschPaganTest", "otpod/_math_tools.py:computeHarrisonMcCabeTest", "otpod/_math_tools.py:computeDurbinWatsonTest"]}
{"id": "C137", "title": "The Harrison-McCabe test keeps its level", "statement": "Under the hypothesis that it tests (independent normal errors with a constant variance), the p-value of the Harrison-McCabe test is at most a level with at most about that probability.", "quantifier": "every number of observations and of simulations, every design", "why_tests_cant": "A statement about the law of the p-value over all data sets and all simulations; a test sees some draws.", "anchors": ["otpod/_math_tools.py:computeHarrisonMcCabeTest", "otpod/_univariate_linear_model_analysis.py:UnivariateLinearModelAnalysis._computeTests"]}
{"id": "C138", "title": "An input without influence has a null index", "statement": "When the performance function does not depend on an input, its perturbation-law index tends to zero when the number of simulations grows, for every perturbation, and for every number of simulations the perturbed probability is an unbiased estimate of the unperturbed one.", "quantifier": "every performance function that does not depend on the input, every threshold, every joint law with independent marginals, every perturbed density with a smaller support, every number of simulations", "why_tests_cant": "Almost sure convergence over infinite sequences of draws.", "anchors": ["otpod/_pli.py:PLI.run", "otpod/_pli.py:PLI._computePfdelta", "otpod/_pli.py:PLI._computePLIndices", "otpod/_pli.py:PLI._computePerturbedPDF"]}
{"id": "C139", "title": "The perturbed probability is a probability", "statement": "The value returned by getPerturbedProbabilityEstimate lies between 0 and 1, so that no index exceeds the index of a certain event.", "quantifier": "every Normal marginal, every new mean, every number of simulations and history", "why_tests_cant": "The failing histories are rare draws far in the tail.", "anchors": ["otpod/_pli.py:PLI._computePfdelta", "otpod/_pli.py:PLI.getPerturbedProbabilityEstimate"]}
{"id": "C140", "title": "Moving a mean towards failure increases the index", "statement": "When the performance function increases with a Normal input, the perturbed probability computed by PLIMeanBase increases with the new mean of the input.", "quantifier": "every performance function increasing in the input, every history, every pair of means", "why_tests_cant": "The claim compares all pairs of perturbations for all histories; the failure appears only for perturbations that are large compared with the simulated sample.", "anchors": ["otpod/_pli.py:PLI._computePfdelta", "otpod/_pli.py:PLIMeanBase._perturbedMarginalPDF", "otpod/_pli.py:PLI._computePLIndices"]}
{"id": "C141", "title": "A larger detection threshold never increases the POD", "statement": "With the same data, settings and random draws and a larger detection threshold, a run of the linear-model or polynomial chaos POD that succeeded still succeeds, its POD curve and its curves at every confidence level are nowhere above the former ones, and the detection sizes of the linear model and of the quantile regression are not smaller.", "quantifier": "every data set with or without Box-Cox and censoring, every residual law, every pair of thresholds, all random draws with positive simulated deviations, every defect and confidence level (above one half for the binomial POD); the detection sizes for continuous strictly increasing curves", "why_tests_cant": "Pairs of runs over all data sets and draws.", "anchors": ["otpod/_univariate_linear_model_pod.py:UnivariateLinearModelPOD.run", "otpod/_univariate_linear_model_pod.py:_computeLinearModel", "otpod/_univariate_linear_model_pod.py:UnivariateLinearModelPOD.getPODCLModel", "otpod/_polynomial_chaos_pod.py:PolynomialChaosPOD.run", "otpod/_polynomial_chaos_pod.py:PolynomialChaosPOD._computePOD", "otpod/_polynomial_chaos_pod.py:PolynomialChaosPOD._buildChaosFunction", "otpod/_quantile_regression_pod.py:QuantileRegressionPOD.computeDetectionSize"]}
{"id": "C142", "title": "Kriging: a larger detection threshold never increases the POD", "statement": "With the same simulated trajectories and a larger detection threshold the simulated POD values at a defect size, and so the POD curve and its confidence curves, are not larger.", "quantifier": "every family of trajectories, every pair of thresholds", "why_tests_cant": "Laws of simulated values for all families of trajectories.", "anchors": ["otpod/_kriging_tools.py:KrigingBase._computePODSamplePerDefect", "otpod/_kriging_tools.py:KrigingBase.getPODCLModel"]}
{"id": "C143", "title": "A quantile regression run succeeds on data with signals on both sides of the threshold", "statement": "QuantileRegressionPOD.run succeeds as soon as the data have signals below and above the threshold at every defect, for the default quantile levels; when it raises, getPODModel does not return the curve of an earlier run as if it were current.", "quantifier": "every data set, censoring and Box-Cox setting, every list of quantile levels, every bootstrap sample", "why_tests_cant": "The outcome depends on where each of many regression lines crosses the threshold; tests use one data set where all of them do.", "anchors": ["otpod/_quantile_regression_pod.py:QuantileRegressionPOD.run", "otpod/_quantile_regression_pod.py:QuantileRegressionPOD._buildModel", "otpod/_quantile_regression_pod.py:QuantileRegressionPOD.getPODModel"]}
{"id": "C144", "title": "The POD of a quantile regression is the share of signals above the threshold line", "statement": "After QuantileRegressionPOD.run the curve is built from pairs of a defect and a requested probability such that a line passing through the threshold at that defect has at most that share of the signals strictly above it and at least that share at or above it.", "quantifier": "every data set with defects that are not negative, every censoring and Box-Cox setting, every list of levels in (0, 1), every exact regression", "why_tests_cant": "It is a statement about the minimisers of a non smooth loss over all lines, for all data.", "anchors": ["otpod/_quantile_regression_pod.py:QuantileRegressionPOD.run", "otpod/_quantile_regression_pod.py:QuantileRegressionPOD._buildModel", "otpod/_quantile_regression_pod.py:QuantileRegressionPOD.getPODModel"]}
{"id": "C145", "title": "The quantile regression POD does not depend on the units of measurement", "statement": "Multiplying the defects by a positive factor and applying an increasing affine change to the signals and the threshold changes the POD curve of QuantileRegressionPOD only by the unit of the defects, and multiplies the detection size by the factor.", "quantifier": "every data set without Box-Cox and censoring whose regression lines are unique and not horizontal, every positive factor, every increasing affine change of the signals", "why_tests_cant": "It quantifies over all changes of units and all data.", "anchors": ["otpod/_quantile_regression_pod.py:QuantileRegressionPOD.run", "otpod/_quantile_regression_pod.py:QuantileRegressionPOD._buildModel", "otpod/_quantile_regression_pod.py:QuantileRegressionPOD.computeDetectionSize", "otpod/_quantile_regression_pod.py:QuantileRegressionPOD.getPODModel"]}
{"id": "C146", "title": "An input without influence has a null total Sobol index", "statement": "When the metamodel does not depend on a parameter, the total index of this parameter given by SobolIndices.run and getSensitivityResult with the Jansen method is zero.", "quantifier": "every metamodel ignoring a parameter, every design, every list of defect sizes, every threshold and simulation size", "why_tests_cant": "Tests compare a few indices of one metamodel with reference values to a few digits; the residual noise is in the reference values.", "anchors": ["otpod/_sobol_indices.py:SobolIndices.run", "otpod/_sobol_indices.py:PODaggrKriging._exec", "otpod/_sobol_indices.py:PODaggrChaos._exec_sample"]}
{"id": "C147", "title": "The total Sobol indices converge to the exact ones", "statement": "When the size of the design grows, the total index of each parameter given by SobolIndices.run with the Jansen method converges almost surely to the expected variance of the POD left when all other parameters are known, divided by the variance of the POD.", "quantifier": "every metamodel, every product distribution of the parameters, every defect size where the POD is not constant, almost every sequence of draws", "why_tests_cant": "It is a limit over an infinite sequence of draws; a bias that does not vanish cannot be told from noise with one design.", "anchors": ["otpod/_sobol_indices.py:SobolIndices.run", "otpod/_sobol_indices.py:PODaggrKriging._exec", "otpod/_sobol_indices.py:PODaggrChaos._exec_sample", "otpod/_sobol_indices.py:SobolIndices.getSensitivityResult"]}
{"id": "C148", "title": "The four sensitivity methods converge to the same exact indices", "statement": "Whatever the method chosen by setSensitivityMethod (Saltelli, Martinez, Jansen, MauntzKucherenko), when the size of the design grows, the first-order and total indices given by SobolIndices.run and getSensitivityResult converge almost surely to the same values: the variance of the POD given the parameter, and the expected variance left when all other parameters are known, both divided by the variance of the POD.", "quantifier": "every metamodel, every product distribution of the parameters, every method, every defect size where the POD is not constant, almost every sequence of draws", "why_tests_cant": "It is a limit over an infinite sequence of draws, for estimators that differ at each finite size; one design cannot tell a bias from noise.", "anchors": ["otpod/_sobol_indices.py:SobolIndices.run", "otpod/_sobol_indices.py:SobolIndices.setSensitivityMethod", "otpod/_sobol_indices.py:PODaggrKriging._exec", "otpod/_sobol_indices.py:PODaggrChaos._exec_sample", "otpod/_sobol_indices.py:SobolIndices.getSensitivityResult"]}
{"id": "C149", "title": "In the limit the first-order indices lie between zero and the total ones, and sum to at most one", "statement": "For each method, when the size of the design grows, the first-order index of a parameter converges to a limit that is not negative and at most the limit of its total index, which is at most one; the limits of the first-order indices of all parameters sum to at most one.", "quantifier": "every kriging or chaos metamodel, every product distribution of the parameters, every method, every defect size (with kriging, one where the POD is not constant in the parameters), almost every sequence of draws", "why_tests_cant": "The finite estimates do leave this range by chance, hence no assertion on one design is reliable; the order holds for the limits only.", "anchors": ["otpod/_sobol_indices.py:SobolIndices.run", "otpod/_sobol_indices.py:SobolIndices.setSensitivityMethod", "otpod/_sobol_indices.py:PODaggrKriging._exec", "otpod/_sobol_indices.py:PODaggrChaos._exec_sample", "otpod/_sobol_indices.py:SobolIndices.getSensitivityResult"]}
{"id": "C150", "title": "When the sampling size grows the simulated POD curves converge to the exact ones", "statement": "With a larger and larger setSamplingSize, the POD curve of a chaos run converges almost surely to the interpolation of the exact probabilities that the fitted metamodel plus a normal residual exceeds the threshold, and each confidence curve to the interpolation of the quantiles of these probabilities over the simulated coefficients; the POD curve of a hit-miss run converges to the interpolation of the mean probabilities of the classifier.", "quantifier": "every basis, coefficients, law of the parameters, threshold, list of sorted defect sizes, confidence level; every classifier; almost every sequence of draws", "why_tests_cant": "It is a limit; a value attributed to the wrong size or a noise with the wrong scale gives plausible numbers at each finite size.", "anchors": ["otpod/_polynomial_chaos_pod.py:PolynomialChaosPOD.run", "otpod/_polynomial_chaos_pod.py:PolynomialChaosPOD._computePOD", "otpod/_polynomial_chaos_pod.py:PolynomialChaosPOD._buildChaosFunction", "otpod/_polynomial_chaos_pod.py:PolynomialChaosPOD.getPODCLModel", "otpod/_adaptive_hitmiss_pod.py:AdaptiveHitMissPOD.run", "otpod/_adaptive_hitmiss_pod.py:AdaptiveHitMissPOD._computePOD"]}
{"id": "C151", "title": "The POD at a confidence level is not above the POD", "statement": "For confidence levels of at least one half, the curve returned by getPODCLModel is nowhere above the one returned by getPODModel.", "quantifier": "every classifier, every simulated values, every level, every defect size", "why_tests_cant": "The order is violated only for skewed distributions of the simulated values, which the few tested data sets do not show.", "anchors": ["otpod/_adaptive_hitmiss_pod.py:AdaptiveHitMissPOD.getPODCLModel", "otpod/_adaptive_hitmiss_pod.py:AdaptiveHitMissPOD._computePOD", "otpod/_adaptive_hitmiss_pod.py:AdaptiveHitMissPOD.getPODModel", "otpod/_kriging_tools.py:KrigingBase.getPODCLModel"]}
{"id": "C152", "title": "The confidence curve of the hit-miss POD tightens when the sampling size grows", "statement": "For a given classifier the POD is a mean over simulated parameters; when setSamplingSize grows, the POD at a confidence level converges to the POD.", "quantifier": "every classifier, every law of the parameters, every confidence level, every defect size, almost every sequence of draws", "why_tests_cant": "It is a limit; at one sampling size the distance between the two curves has no reference value.", "anchors": ["otpod/_adaptive_hitmiss_pod.py:AdaptiveHitMissPOD.getPODCLModel", "otpod/_adaptive_hitmiss_pod.py:AdaptiveHitMissPOD._computePOD", "otpod/_adaptive_hitmiss_pod.py:AdaptiveHitMissPOD.run"]}
{"id": "C153", "title": "A perturbation of a Uniform marginal is honoured or refused", "statement": "A mean or a variance given to PLIMeanBase or PLIVarianceBase for a Uniform marginal is either refused or is the mean (with the original mean, the variance) of the perturbed density used by the run; in particular whether it is honoured does not depend on the unit of the input.", "quantifier": "every interval, every new mean, every positive new variance, every minimum of the dual function over the box of the optimiser", "why_tests_cant": "The tests use two or three intervals of length about one and moderate changes; the multipliers then are inside the box. The failure shows only as slightly wrong indices.", "anchors": ["otpod/_pli.py:PLIVarianceBase.optimizeLambda", "otpod/_pli.py:PLIVarianceBase._perturbedMarginalPDF", "otpod/_pli.py:PLIVarianceBase.__init__", "otpod/_pli.py:PLIMeanBase._perturbedMarginalPDF", "otpod/_pli.py:PLIMeanBase.__init__"]}
{"id": "C154", "title": "The adaptive methods evaluate the physical model at new points, as often as asked", "statement": "run of AdaptiveSignalPOD and AdaptiveHitMissPOD calls the physical model nMorePoints times, each time at a candidate that is not yet in the design, also when run is called again.", "quantifier": "every physical model, criterion, classifier, candidate design, number of points and sequence of runs", "why_tests_cant": "Tests check the size of the final design only; a repeated or discarded evaluation leaves it unchanged.", "anchors": ["otpod/_adaptive_signal_pod.py:AdaptiveSignalPOD.run", "otpod/_adaptive_hitmiss_pod.py:AdaptiveHitMissPOD.run"]}
{"id": "C155", "title": "The Box-Cox parameter is determined by the signals", "statement": "For positive signals that are not all equal, the likelihood maximised by computeBoxCox has exactly one maximiser; it increases strictly before it and decreases strictly after it, so that a local search cannot stop elsewhere; multiplying the signals by a positive factor does not change the maximiser and raising them to a power divides it by the power.", "quantifier": "every sample of positive signals that are not all equal, every exponent, factor and power", "why_tests_cant": "Tests check the parameter found for one data set; a second maximum or a dependence on the unit would not show.", "anchors": ["otpod/_math_tools.py:computeBoxCox", "otpod/_univariate_linear_model_pod.py:_computeLinearModel"]}
{"id": "C156", "title": "With Box-Cox the POD does not depend on the unit of the signals", "statement": "UnivariateLinearModelPOD with boxCox=True gives the same POD when the signals and the threshold are expressed in another unit.", "quantifier": "every data set without censoring, every threshold, unit and defect size", "why_tests_cant": "Tests use one unit; the constant 100 of the automatic shift is harmless for signals of the order of 100.", "anchors": ["otpod/_univariate_linear_model_pod.py:UnivariateLinearModelPOD.run", "otpod/_univariate_linear_model_pod.py:_computeLinearModel", "otpod/_math_tools.py:computeBoxCox"]}
{"id": "C157", "title": "Box-Cox finds the transformation that makes the signals linear in the defects", "statement": "With boxCox=True, when the logarithm of the signals (or the signals themselves) is an exact linear function of the defects, UnivariateLinearModelPOD.run finds that transformation: the parameter is 0 (or 1) and the residuals vanish.", "quantifier": "every set of defects, intercept, nonzero slope and threshold; the sign of the parameter for every sample of positive signals", "why_tests_cant": "Tests compare the parameter with a stored value; the example of the documentation has a true parameter of 0.3 and finds 0.22.", "anchors": ["otpod/_univariate_linear_model_pod.py:_computeLinearModel", "otpod/_math_tools.py:computeBoxCox", "otpod/_univariate_linear_model_pod.py:UnivariateLinearModelPOD.run"]}
{"id": "C158", "title": "The censored fit has one best parameter vector and no local traps", "statement": "With noise or saturation thresholds, the function that run minimises to fit the line (intercept, slope, standard error) has at most one local minimum where it is finite, and that one is strictly better than every other parameter vector. So the line, the residuals and the POD of a censored run depend neither on the random starting points nor on the optimiser, as long as the optimiser reaches a minimum.", "quantifier": "every data set with two different defects among the kept observations, every thresholds (given or not), every random draws, every pair of exact optimisers, with and without Box-Cox", "why_tests_cant": "Tests run one optimiser from one seed on one data set; a second minimum would only show with other starts or other data.", "anchors": ["otpod/_math_tools.py:MLE", "otpod/_math_tools.py:computeLinearParametersCensored", "otpod/_univariate_linear_model_pod.py:_computeLinearModel", "otpod/_univariate_linear_model_pod.py:UnivariateLinearModelPOD.run"]}
{"id": "C159", "title": "A censored run does not depend on the units", "statement": "Expressing the defects in another unit or origin, and the signals together with the noise, saturation and detection thresholds in another unit or origin, a run of UnivariateLinearModelPOD with thresholds keeps the same observations and gives the same Gaussian POD and the same binomial POD for each flaw.", "quantifier": "every data set with at least three kept observations, not all at one size and not on one line, every affine change of units of the defects (nonzero factor) and of the signals (positive factor), every thresholds, every random draws", "why_tests_cant": "Tests use one unit; the censored fit is an optimisation with random restarts, so equality cannot be read off the outputs.", "anchors": ["otpod/_math_tools.py:MLE", "otpod/_math_tools.py:computeLinearParametersCensored", "otpod/_univariate_linear_model_pod.py:_computeLinearModel", "otpod/_univariate_linear_model_pod.py:UnivariateLinearModelPOD._PODgaussModel", "otpod/_univariate_linear_model_pod.py:UnivariateLinearModelPOD._PODbinomialModel"]}
{"id": "C160", "title": "A larger probability or confidence level never gives a smaller detection size", "statement": "For one fitted POD, computeDetectionSize with a larger probability level (or a larger confidence level) never returns a smaller defect: a50 is at most a90, and a90/95 is at most a90/99. In particular the sizes listed by the summary come in the order of the levels.", "quantifier": "every data set, every search interval, every pair of levels for which both calls succeed, every root finder that keeps a bracket", "why_tests_cant": "Tests compute a90 and a90/95 for fixed data; the order of two levels on other data sets, in particular where the POD is not monotone or jumps, is not compared.", "anchors": ["otpod/_pod.py:POD._computeDetectionSize", "otpod/_univariate_linear_model_pod.py:UnivariateLinearModelPOD._PODgaussModel", "otpod/_univariate_linear_model_pod.py:UnivariateLinearModelPOD._PODbinomialModel", "otpod/_univariate_linear_model_pod.py:UnivariateLinearModelPOD._PODbinomialModelCl", "otpod/_quantile_regression_pod.py:QuantileRegressionPOD.computeDetectionSize"]}
{"id": "C161", "title": "The kriging model reproduces the observed signals and is certain there", "statement": "At every observed point the prediction of the kriging model used for the POD is the observed (transformed) signal and the conditional variance is zero; elsewhere the variance is not negative. Simulated points that coincide with observations therefore contribute the observed detection, whatever the random draws.", "quantifier": "every design with an invertible kriging system, every signals, every covariance model and trend, every random draws", "why_tests_cant": "Tests compare predictions on one design to a tolerance; interpolation and nonnegativity for every design and covariance model is an algebraic fact.", "anchors": ["otpod/_kriging_tools.py:KrigingBase._buildKrigingAlgo", "otpod/_kriging_tools.py:KrigingBase._randomVectorSampling", "otpod/_kriging_tools.py:KrigingBase._computePODSamplePerDefect", "otpod/_kriging_pod.py:KrigingPOD.run"]}
{"id": "C162", "title": "Trying a candidate with its predicted signal does not change the predictions", "statement": "In an iteration of AdaptiveSignalPOD.run, the temporary kriging model of a candidate (the candidate added with the signal predicted by the current model, covariance parameters unchanged) predicts the same signals as the current model everywhere and is nowhere less certain, so that the criterion only measures the effect of the new point.", "quantifier": "every design, every signals, every candidate, every covariance model and trend", "why_tests_cant": "The temporary models are not accessible from outside, tests only see which candidate is chosen.", "anchors": ["otpod/_adaptive_signal_pod.py:AdaptiveSignalPOD.run", "otpod/_kriging_tools.py:KrigingBase._buildKrigingAlgo"]}
{"id": "C163", "title": "The perturbation law indices do not depend on the units of the inputs", "statement": "Take a Monte Carlo simulation and its input distribution, write every input in another unit and with another origin (x_j -> a_j x_j + t_j, a_j > 0), and build the PLI object again with the same deltas. PLIMeanBase with sigmaScaled=True returns the same perturbed probabilities, variances, indices and standard deviations for Normal and Uniform inputs. PLIVarianceBase with covScaled=True returns the same results when the origins are kept and the perturbed variance is reached in both units; the general statement is false: moving the origin of a Normal input changes the perturbed probability (a zero mean even switches the perturbation off), and writing a Uniform input in a small unit changes it because the optimiser is restricted to multipliers in [-1000, 1000] in every unit.", "quantifier": "every dimension, every unit and origin of each input, every Normal or Uniform marginal, every list of deltas, every history, operator, threshold and simulation size; every root finder and optimiser meeting its contract", "why_tests_cant": "A test compares one pair of units; the claim is an equality of results over all units, and the failing cases need an optimiser hitting its bounds in one unit only.", "anchors": ["otpod/_pli.py:PLIMeanBase.__init__", "otpod/_pli.py:PLIMeanBase._perturbedMarginalPDF", "otpod/_pli.py:PLIVarianceBase.__init__", "otpod/_pli.py:PLIVarianceBase._perturbedMarginalPDF", "otpod/_pli.py:PLI._computePfdelta", "otpod/_pli.py:PLI._computePerturbedPDF"]}
{"id": "C164", "title": "The figures of the Sobol analysis show the last run and say so", "statement": "After any history of setDefectSizes, setSensitivityMethod and run calls: drawFirstOrderIndices and drawTotalOrderIndices plot the indices of the algorithm created by the last run that returned, getSensitivityResult returns that algorithm, and before such a run getSensitivityResult and drawAggregatedIndices raise. The title names the method of the plotted indices exactly when the method was not changed since that run; a list of labels of the wrong length is refused. The unrestricted claim is false in three ways: after setSensitivityMethod without a new run the figure keeps the old indices under the name of the new method; before any run the two figures are returned empty instead of raising; and negative estimates, which the estimators produce for PODs with values in [0, 1], are outside the fixed window [0, 1.2].", "quantifier": "every history of calls, every POD (design), every estimator, both orders, every number of parameters and list of labels", "why_tests_cant": "The claim is about all interleavings of setters and runs; a test looks at a figure drawn right after one run.", "anchors": ["otpod/_sobol_indices.py:SobolIndices._drawIndices", "otpod/_sobol_indices.py:SobolIndices.drawFirstOrderIndices", "otpod/_sobol_indices.py:SobolIndices.drawTotalOrderIndices", "otpod/_sobol_indices.py:SobolIndices.drawAggregatedIndices", "otpod/_sobol_indices.py:SobolIndices.getSensitivityResult", "otpod/_sobol_indices.py:SobolIndices.setSensitivityMethod", "otpod/_sobol_indices.py:SobolIndices.run"]}
{"id": "C165", "title": "Double precision does not change the binomial confidence curve", "statement": "The confidence curve of the binomial POD counts the residuals above the margin as the truncated product of the sample size and the complementary CDF of the residuals. With double precision arithmetic (rounding to nearest, any rule for ties) and at most 2^25 residuals, whether the complementary CDF is the rounded quotient, one minus the rounded CDF, or one minus the accumulated sum of the weights: the count is never more than the number of residuals above the margin and at most one less. So the curve has at every defect the exact value or the value for one detection less, and never lies above the exact curve when some residual is not above the margin or the level is more than one half. The unrestricted claim is false: the count is one short for 1 residual among 5 (complement) and for 15 among 22 (quotient), so that the curve of one detection is the one of none.", "quantifier": "every rounding to nearest with 53 bits, every sample of 1 to 2^25 residuals, threshold, fitted line, level in (0, 1) and defect", "why_tests_cant": "The errors depend on the size and the count (1 of 5, 15 of 22, ...); a test with a sample where the product happens to be exact sees nothing.", "anchors": ["otpod/_univariate_linear_model_pod.py:UnivariateLinearModelPOD._PODbinomialModelCl"]}
{"id": "C166", "title": "The figures of the fitted models show the data and the fitted curve under the right label", "statement": "For every analysis that succeeded, drawLinearModel and drawResiduals: the points are the observations strictly between the thresholds (all of them without thresholds) with their transformed signals; the red line is exactly the asked fitted line over the range of these defects, whatever the order of the data; the plotted residuals are the vertical distances between the two. The censored figures exist exactly when a threshold was given; any other name is refused with a NameError. The line of the quantile figure crosses the transformed threshold at the detection size when the regression of the figure (default tolerances) agrees with that of the POD. The curve of the chaos figure is the graph of a function with the value of the model at every defect, and is refused unless there is one input. The label of the ordinate is right exactly when censored models and Box-Cox go together; the unrestricted claim is false: transformed signals are shown as Signals, and raw signals of a censored analysis as Box Cox (signals).", "quantifier": "every data set in any order, thresholds, Box-Cox setting, external fit and model name; every chaos model", "why_tests_cant": "The order of the data, the thresholds and the transformation vary independently; a test compares no pixels and uses one sorted sample.", "anchors": ["otpod/_univariate_linear_model_analysis.py:UnivariateLinearModelAnalysis.drawLinearModel", "otpod/_univariate_linear_model_analysis.py:UnivariateLinearModelAnalysis.drawResiduals", "otpod/_quantile_regression_pod.py:QuantileRegressionPOD.drawLinearModel", "otpod/_polynomial_chaos_pod.py:PolynomialChaosPOD.drawPolynomialChaosModel"]}
{"id": "C167", "title": "In the Hellinger plot of the perturbation indices a larger delta is drawn further to the right", "statement": "drawIndices with hellinger=True replaces the deltas by signed Hellinger values; for deltas given in increasing order the abscissas of the points of a marginal are in increasing order, so that the curve is a function of the perturbation and different deltas are never drawn on top of each other.", "quantifier": "for every Normal and Uniform marginal, every increasing list of means (inside the interval for a Uniform marginal) or of positive variances (admissible ones for a Uniform marginal)", "why_tests_cant": "a drawing test compares pictures for one distribution whose deltas the optimiser reaches; the order for all laws, and the interval of variances collapsed to one point by the fixed box, need an argument on exponential families", "anchors": ["otpod/_pli.py:PLI.drawIndices", "otpod/_pli.py:PLI._computeHellinger", "otpod/_pli.py:PLIMeanBase.getOriginalDelta", "otpod/_pli.py:PLIVarianceBase.getOriginalDelta"]}
{"id": "C168", "title": "With thresholds the fit and the Gaussian POD converge to the truth", "statement": "If the signals follow a line plus Gaussian errors independent of the defects and part of them is censored by a noise and/or a saturation threshold, then as the number of independent observations grows every run of UnivariateLinearModelPOD with the thresholds succeeds, its intercept, slope and standard error converge almost surely to the true ones, and the Gaussian POD converges at every size to the true probability of detection: the censoring leaves no bias.", "quantifier": "every true line, positive standard deviation, thresholds with noise < saturation (given or not), detection threshold, size, square-integrable law of the defects that is not constant, every sequence of random starts and exact optimisers; almost every infinite sample", "why_tests_cant": "Almost sure convergence over infinite samples of a maximum likelihood without closed form; tests compare the fit of one data file.", "anchors": ["otpod/_univariate_linear_model_pod.py:_computeLinearModel", "otpod/_math_tools.py:computeLinearParametersCensored", "otpod/_math_tools.py:MLE", "otpod/_math_tools.py:DataHandling.filterCensoredData", "otpod/_univariate_linear_model_pod.py:UnivariateLinearModelPOD._PODgaussModel"]}
{"id": "C169", "title": "With thresholds the binomial POD converges to the true probability of detection", "statement": "If the signals follow a line plus Gaussian errors independent of the defects and part of them is censored by thresholds, then as the number of independent observations grows the binomial POD of UnivariateLinearModelPOD.run converges at every size to the probability that the line plus an error exceeds the detection threshold.", "quantifier": "every true line, standard deviation, thresholds with noise < saturation, detection threshold, size, law of the defects; almost every infinite sample", "why_tests_cant": "Almost sure convergence over infinite samples; one data file cannot tell a bias from noise.", "anchors": ["otpod/_univariate_linear_model_pod.py:_computeLinearModel", "otpod/_univariate_linear_model_pod.py:UnivariateLinearModelPOD._PODbinomialModel", "otpod/_math_tools.py:DataHandling.filterCensoredData"]}
{"id": "C170", "title": "The quantile regression POD converges to the true probability of detection at the requested levels", "statement": "If the signals follow an increasing line plus errors independent of the defects, whatever the law of the errors, then as the number of independent observations grows the curve of QuantileRegressionPOD.run takes at the size where the true probability of detection is a requested level a value converging to that level; at any other size it is eventually between the two neighbouring requested levels, as the truth is; and computeDetectionSize converges to the size where the true probability is the wanted one.", "quantifier": "every increasing true line, detection threshold, integrable laws of the defects (not one point) and of the errors, every increasing list of levels crossed strictly by the true POD at positive sizes below some defects, every exact regression, every bootstrap samples; almost every infinite sample; no thresholds, no Box-Cox", "why_tests_cant": "Almost sure convergence over infinite samples of minimisers of a non smooth loss; tests run on one data file.", "anchors": ["otpod/_quantile_regression_pod.py:QuantileRegressionPOD.run", "otpod/_quantile_regression_pod.py:QuantileRegressionPOD._buildModel", "otpod/_quantile_regression_pod.py:QuantileRegressionPOD.getPODModel", "otpod/_quantile_regression_pod.py:QuantileRegressionPOD.computeDetectionSize"]}
{"id": "C171", "title": "The chaos POD converges to the true probability of detection", "statement": "When the signals are a combination of the basis functions of the chaos plus independent centred normal errors, and no threshold removes observations, the coefficients of PolynomialChaosPOD converge almost surely to the true ones and the square of its residual standard error to the variance of the errors. For each number of observations the POD curve of run() tends, when the sampling size grows, to a limit at every size of the range; these limits converge, when the number of observations grows, to the linear interpolation of the true probabilities that the signal exceeds the detection level.", "quantifier": "for every basis of square integrable linearly independent functions, every law of the inputs, every coefficients, every positive variance of the errors, every detection level, every list of sizes, every law of the parameters of the simulation and almost every sequence of observations and of draws", "why_tests_cant": "a limit over the number of observations and over the sampling size, for almost every sequence: a test sees one finite sample and one finite simulation", "anchors": ["otpod/_polynomial_chaos_pod.py:PolynomialChaosPOD.run", "otpod/_polynomial_chaos_pod.py:PolynomialChaosPOD._computePOD", "otpod/_polynomial_chaos_pod.py:PolynomialChaosPOD._buildChaosFunction"]}
{"id": "C172", "title": "Without a normal hypothesis the linear POD and its detection sizes converge to the truth", "statement": "If the signals follow a line plus centred errors uncorrelated with the defects, whatever the law of the errors, then as the number of independent observations grows the POD of UnivariateLinearModelPOD.run with kernel smoothing of the residuals converges almost surely to the true probability of detection at every size where the law of the errors has no atom at the margin; for an increasing line the curve does not decrease, and computeDetectionSize of the binomial POD and of the kernel smoothing POD converges to the size where the true probability crosses the requested level.", "quantifier": "every line, threshold and square integrable law of defects (not constant) and errors, every kernel, every bandwidth that is at most a multiple of the standard deviation of the residuals times a negative power of their number, every size, every level crossed strictly by the true POD inside the range of the defects, every bracketing solver; almost every infinite sample; no thresholds, no Box-Cox", "why_tests_cant": "Almost sure convergence over infinite samples, for every law of the errors; tests run one data file.", "anchors": ["otpod/_univariate_linear_model_pod.py:UnivariateLinearModelPOD.run", "otpod/_univariate_linear_model_pod.py:UnivariateLinearModelPOD._PODbootstrapModel", "otpod/_univariate_linear_model_pod.py:UnivariateLinearModelPOD._PODbinomialModel", "otpod/_univariate_linear_model_pod.py:UnivariateLinearModelPOD.computeDetectionSize"]}
{"id": "C173", "title": "The binomial confidence curve closes on the POD and a90/95 converges to the true size", "statement": "The curve returned by getPODCLModel for the binomial hypothesis never lies further than 1 / (2 sqrt(N min(c, 1 - c))) from the one of getPODModel, whatever the data; hence as the number of independent observations grows it converges almost surely to the true probability of detection at every level, and for a level above one half both sizes returned by computeDetectionSize(p, c) converge to the size where the true probability crosses p.", "quantifier": "distance: every non-empty list of residuals, every threshold, linear prediction, size and level 0 < c < 1; limits: every line (increasing for the sizes), threshold and square integrable law of defects (not constant) and errors (centred, uncorrelated with the defects), every size where the law of the errors has no atom at the margin, every probability level crossed strictly inside the range of the defects, every confidence level above one half for the sizes, every bracketing solver; almost every infinite sample; no thresholds, no Box-Cox", "why_tests_cant": "A bound over all data sets and an almost sure limit over infinite samples; tests compare a few values of one data file.", "anchors": ["otpod/_univariate_linear_model_pod.py:UnivariateLinearModelPOD._PODbinomialModelCl", "otpod/_univariate_linear_model_pod.py:UnivariateLinearModelPOD._PODbinomialModel", "otpod/_univariate_linear_model_pod.py:UnivariateLinearModelPOD.getPODCLModel", "otpod/_univariate_linear_model_pod.py:UnivariateLinearModelPOD.computeDetectionSize"]}
{"id": "C174", "title": "A variance that depends on the defect is found when the observations are many", "statement": "When the variance of the errors depends on the defect, both tests of homoskedasticity shown by the analysis (Breusch-Pagan and Harrison-McCabe) give p-values that fall below any level once the observations are numerous enough, so that the warning is printed.", "quantifier": "every law of the defects and of the errors whose square is correlated with the defect, every line, almost every infinite sample, every number of simulations", "why_tests_cant": "A limit over infinite samples and a probability over all data sets; a test sees some draws.", "anchors": ["otpod/_math_tools.py:computeBreuschPaganTest", "otpod/_math_tools.py:computeHarrisonMcCabeTest", "otpod/_univariate_linear_model_analysis.py:UnivariateLinearModelAnalysis._computeTests"]}
{"id": "C175", "title": "For many observations the Breusch-Pagan test keeps its level", "statement": "When the errors are independent of the defects, the probability that the p-value of the Breusch-Pagan test shown by the analysis is below alpha tends to alpha, whatever the laws of the defects and of the errors: the warning at 0.05 is given in about one data set out of twenty, and normality is not needed.", "quantifier": "every law of the defects (not constant) and of the centred errors (absolute value not constant) with fourth moments, every line, every 0 < alpha < 1", "why_tests_cant": "The limit of a probability over all data sets of a given size; a test sees one p-value.", "anchors": ["otpod/_math_tools.py:computeBreuschPaganTest", "otpod/_univariate_linear_model_analysis.py:UnivariateLinearModelAnalysis._computeTests"]}
{"id": "C176", "title": "The Durbin-Watson test uses the exact mean and variance of its statistic", "statement": "When the errors are independent, normal and of the same variance, the number the code takes as mean of the Durbin-Watson statistic of the residuals and the number it takes as variance (from the traces of the design matrix) are exactly the expectation and the variance of that statistic, for every design and every line; hence the p-value shown falls below 2(1 - Phi(q)) with probability at most 1/q^2, whatever the number of observations.", "quantifier": "every design of at least three observations not all at the same defect, every line, every positive noise level, every q > 0", "why_tests_cant": "An expectation and a variance over all noise vectors; a test compares one p-value with a stored number.", "anchors": ["otpod/_math_tools.py:computeDurbinWatsonTest", "otpod/_univariate_linear_model_analysis.py:UnivariateLinearModelAnalysis._computeTests"]}
{"id": "C177", "title": "The Durbin-Watson p-value is a number between 0 and 1", "statement": "Whenever the linear analysis can be run, the p-value of the Durbin-Watson test it shows is a number between 0 and 1.", "quantifier": "every data set of at least two observations not all at the same defect", "why_tests_cant": "All designs and all residuals; a test uses data sets of many observations.", "anchors": ["otpod/_math_tools.py:computeDurbinWatsonTest", "otpod/_univariate_linear_model_analysis.py:UnivariateLinearModelAnalysis._computeTests"]}
{"id": "C178", "title": "Successive errors that are correlated are found when the observations are many", "statement": "When the errors of successive observations are correlated (for instance a moving average of independent shocks), the p-value of the Durbin-Watson test shown by the analysis is a number and falls below every level once the observations are numerous enough, so that the warning is printed.", "quantifier": "every stationary sequence of observations in which the defect and the error are functions of a window of any length of independent shocks of any law, with finite second moments, centred errors not correlated with the defect of the same observation, and non-zero correlation between successive errors; every line; almost every infinite sample", "why_tests_cant": "A limit over infinite samples; a test sees some draws.", "anchors": ["otpod/_math_tools.py:computeDurbinWatsonTest", "otpod/_univariate_linear_model_analysis.py:UnivariateLinearModelAnalysis._computeTests"]}
{"id": "C179", "title": "For many observations the Durbin-Watson test keeps its level", "statement": "When the errors are independent, normal and of the same variance, the probability that the p-value of the Durbin-Watson test shown by the analysis is below alpha tends to alpha as the number of observations grows, whatever the defects: the warning at 0.05 is given in about one data set out of twenty.", "quantifier": "every sequence of designs of growing size (none constant), every line, every noise level, every 0 < alpha < 1", "why_tests_cant": "The limit of a probability over all data sets of a given size; a test sees one p-value.", "anchors": ["otpod/_math_tools.py:computeDurbinWatsonTest", "otpod/_univariate_linear_model_analysis.py:UnivariateLinearModelAnalysis._computeTests"]}
{"id": "C180", "title": "The kriging POD converges to the probability of detection of the physical model", "statement": "Let the signal of the inspection be a deterministic function of the defect and of the other parameters (affine in the defect plus sums of products of smooth functions of one parameter) observed at independent random inputs, and let the user choose the AbsoluteExponential covariance model. When the number of observations grows, the prediction of the kriging model built by run (with the normalisation of the inputs and the default trend) tends to the signal and its variance tends to zero at every point of the domain, whatever scales and amplitude the optimiser found at each size. For given simulation draws the POD values, the POD curve and the curves at every confidence level left by run are, from some number of observations on, exactly the ones obtained by simulating the physical signal itself; and when the sampling size grows too, they tend to the interpolation of the true probabilities of detection.", "quantifier": "all dimensions, all bounded design laws with continuous marginals, all signals of the class, all sequences of estimated scales in a range away from zero and of bounded amplitudes (chosen after the data), all thresholds, all sorted lists of sizes, all numbers of trajectories, all confidence levels; almost every sequence of observations and of draws", "why_tests_cant": "A test sees one design of fixed size and one seed; convergence for every design law, every behaviour of the optimiser and every signal is a statement about infinitely many fits.", "anchors": ["otpod/_kriging_tools.py:KrigingBase._buildKrigingAlgo", "otpod/_kriging_tools.py:KrigingBase._computePODSamplePerDefect", "otpod/_kriging_tools.py:KrigingBase._randomVectorSampling", "otpod/_kriging_pod.py:KrigingPOD.run"]}
{"id": "C181", "title": "With thresholds the detection size of the quantile regression is still right for many observations", "statement": "Let the signal be a line in the defect size plus an independent error, and let the user give a noise threshold or a saturation threshold (censored data). When the number of observations grows, the size a returned by computeDetectionSize(p) of a quantile regression POD tends to be detected with the requested probability p (at least with a probability not below p).", "quantifier": "all lines, all error laws, all two-size designs with any probabilities, all thresholds that filter a part of the signals at each size, all probability levels, all exact quantile regressions; almost every infinite sample", "why_tests_cant": "A test compares one fit with stored numbers; that the filtered signals shift the answer by an amount that does not vanish with more data is a statement about limits, for every law.", "anchors": ["otpod/_quantile_regression_pod.py:QuantileRegressionPOD.run", "otpod/_quantile_regression_pod.py:QuantileRegressionPOD.computeDetectionSize", "otpod/_pod.py:POD._run"]}
{"id": "C182", "title": "Errors that do not follow a normal law are found when the observations are many", "statement": "Let the signals be a line in the defect size plus a centred error with finite variance, uncorrelated with the size, whose law is not a normal law. Then, as the number of observations grows, the p-values getKolmogorovPValue (with the default NormalFactory), getCramerVonMisesPValue and getAndersonDarlingPValue of the analysis tend to zero, so that the three tests eventually reject, whatever the first type error.", "quantifier": "all lines, all laws of the pair (size, error) with second moments, a non-constant size and an error whose marginal law is not normal; almost every infinite sample; all implementations of the three tests that are consistent in their distance; all levels", "why_tests_cant": "A test runs one sample with one seed; that no alternative law escapes the tests in the long run is a statement on all laws and on limits.", "anchors": ["otpod/_univariate_linear_model_analysis.py:UnivariateLinearModelAnalysis._run", "otpod/_univariate_linear_model_analysis.py:UnivariateLinearModelAnalysis._computeTests"]}
{"id": "C183", "title": "With thresholds the zero mean test does not reject a correct model", "statement": "Let all hypotheses of the analysis hold: the signals are a line in the defect size plus independent centred normal errors with one variance. An analysis with a noise threshold and/or a saturation threshold then does not report the hypothesis of residuals with zero mean as false; in particular the p-value of getZeroMeanPValue does not tend to zero when the number of observations grows.", "quantifier": "all lines, all laws of the sizes with a finite variance, all standard deviations, all thresholds, all exact optimisers and random starting points; almost every infinite sample", "why_tests_cant": "A test runs one data set with one seed; that the test condemns every correct model once the sample is large is a statement about a limit, for every law.", "anchors": ["otpod/_univariate_linear_model_analysis.py:UnivariateLinearModelAnalysis._run", "otpod/_univariate_linear_model_analysis.py:UnivariateLinearModelAnalysis._computeTests", "otpod/_univariate_linear_model_analysis.py:UnivariateLinearModelAnalysis.getZeroMeanPValue", "otpod/_math_tools.py:computeZeroMeanTest"]}
{"id": "C184", "title": "The confidence intervals of the coefficients have the displayed level", "statement": "When the signals are a line in the defect size plus independent centred normal errors with one variance, the interval printed by the analysis for the intercept (no thresholds, no Box-Cox) contains the true intercept with probability exactly 0.95, the level printed below it, and the interval of the slope contains the true slope with probability exactly 0.95.", "quantifier": "all numbers of observations from three on, all defect sizes that are not all equal, all lines, all standard deviations; the exact probability, not a limit", "why_tests_cant": "A test can only compare the printed numbers with stored ones; the level is a probability over all samples, with an exact law for each sample size.", "anchors": ["otpod/_univariate_linear_model_analysis.py:UnivariateLinearModelAnalysis._run", "otpod/_univariate_linear_model_analysis.py:UnivariateLinearModelAnalysis._buildPrintResults"]}
{"id": "C185", "title": "With thresholds the displayed interval of the slope keeps its level", "statement": "When the signals are a line with a slope that is not zero plus independent centred normal errors with one variance, and a noise or a saturation threshold (or both) is given, the 0.95 interval printed by the analysis for the slope still contains the true slope for most samples.", "quantifier": "all lines with a slope that is not zero, all standard deviations, all laws of the sizes with a finite positive variance, all thresholds, all large numbers of observations; with probability one", "why_tests_cant": "The failure is an asymptotic statement about a random interval: any finite set of samples has intervals that contain the slope and intervals that do not.", "anchors": ["otpod/_univariate_linear_model_analysis.py:UnivariateLinearModelAnalysis._run", "otpod/_univariate_linear_model_analysis.py:UnivariateLinearModelAnalysis._buildPrintResults"]}
{"id": "C186", "title": "The detection size separates the smaller defects from the larger ones", "statement": "After a run of the linear model with normal residuals (no thresholds, no Box-Cox), for a probability level strictly between the POD of the smallest and the POD of the largest observed defect, computeDetectionSize returns the one size such that every smaller defect of the observed range has a POD below the level and every larger defect of the range has a POD above it; the answer does not depend on the root finder.", "quantifier": "all data sets with two different sizes and residuals that are not all zero, all detection thresholds, all slopes (also negative or zero), all levels, all correct root finders", "why_tests_cant": "The POD curve is not monotone in general (C23), so no test of a few points shows that the level is crossed once only.", "anchors": ["otpod/_univariate_linear_model_pod.py:UnivariateLinearModelPOD.computeDetectionSize", "otpod/_univariate_linear_model_pod.py:UnivariateLinearModelPOD._PODgaussModel", "otpod/_pod.py:POD._computeDetectionSize"]}
{"id": "C187", "title": "The tests of the analysis depend on the signals", "statement": "Whatever the design accepted by UnivariateLinearModelAnalysis (at least three observations, not all at one defect), the p-values of its residual tests react to the signals: there are two sets of signals at these defects, neither exactly on a line, for which some test (Anderson-Darling, Cramer-von Mises, Kolmogorov, zero mean, Breusch-Pagan, Harrison-McCabe, Durbin-Watson) gives different p-values.", "quantifier": "for all designs and all pairs of signal vectors; all even and scale-free normality tests; all simulated samples of the Harrison-McCabe test", "why_tests_cant": "A run on three points prints seven plausible p-values; that they are the same seven numbers for every other set of signals only shows when all signals are compared.", "anchors": ["otpod/_univariate_linear_model_analysis.py:UnivariateLinearModelAnalysis._computeTests", "otpod/_univariate_linear_model_analysis.py:UnivariateLinearModelAnalysis._run", "otpod/_math_tools.py:computeBreuschPaganTest", "otpod/_math_tools.py:computeHarrisonMcCabeTest", "otpod/_math_tools.py:computeDurbinWatsonTest", "otpod/_math_tools.py:computeZeroMeanTest"]}
{"id": "C188", "title": "The metamodels do not depend on the order of the observations", "statement": "Giving the same observations (inputs with their signals) in another order leaves the kriging prediction and conditional variance at every point, the leave-one-out prediction of each observation, the kriging Q2 and, for the same draws, the simulated trajectories unchanged; it leaves the least squares chaos coefficients, the residual sum of squares and the chaos Q2 unchanged.", "quantifier": "all samples, all orders, all covariance functions and trend bases with fixed parameters, all basis matrices, all draws", "why_tests_cant": "The formulas work on whole matrices; a bug that pairs a row with the signal of another row is only seen when all orders are compared.", "anchors": ["otpod/_kriging_tools.py:KrigingBase._buildKrigingAlgo", "otpod/_kriging_tools.py:KrigingBase._computeLOO", "otpod/_kriging_tools.py:KrigingBase._computeQ2", "otpod/_kriging_tools.py:KrigingBase._randomVectorSampling", "otpod/_polynomial_chaos_pod.py:PolynomialChaosPOD.getQ2"]}
{"id": "C189", "title": "The correction of the hit miss classifier by its confusion matrix maps the predicted to the observed share of detections", "statement": "After run() with added points, where the new classifier returns the share of detections that the previous classifier predicts on the design, the corrected probability is the share of detections observed on the design; in particular it lies on the side of the observed share.", "quantifier": "all designs, physical models, classifiers and candidates; all numbers of right and wrong detections and misses for which both labels and both predictions occur", "why_tests_cant": "The correction keeps values in [0,1] and is increasing for a good classifier, so plots look plausible; only the algebra shows that it moves in the wrong direction.", "anchors": ["otpod/_adaptive_hitmiss_pod.py:AdaptiveHitMissPOD.run"]}
{"id": "C190", "title": "The Gaussian POD is calibrated: a threshold with POD p at a size is exceeded by a new signal of this size with probability p", "statement": "When the signals follow a line plus independent centred normal errors of one unknown variance and the detection threshold is set to the value at which the Gaussian POD of the fitted model at a size equals p, a new signal measured at this size exceeds the threshold with probability p.", "quantifier": "all numbers of observations from three on, all sizes not all equal, all lines, error variances, sizes and probabilities p in (0,1)", "why_tests_cant": "The probability is over new data sets and new measurements; no single run shows it, and with many observations the error is small.", "anchors": ["otpod/_univariate_linear_model_pod.py:UnivariateLinearModelPOD._PODgaussModel", "otpod/_univariate_linear_model_pod.py:_computeLinearModel"]}
{"id": "C191", "title": "The binomial POD is an unbiased estimate of the probability of detection", "statement": "When the signals follow a line plus independent normal errors, the expectation over the data of the POD drawn by UnivariateLinearModelPOD with the empirical residuals (resDistFact = None) at a size is the probability that a new signal of that size exceeds the detection threshold.", "quantifier": "for every number of observations, every design that is not a single size, every true line, error variance, threshold and evaluation size", "why_tests_cant": "The bias is an expectation over all data sets; one data set gives one curve, and averaging finitely many simulated curves only bounds the bias statistically for one design.", "anchors": ["otpod/_univariate_linear_model_pod.py:UnivariateLinearModelPOD._PODbinomialModel", "otpod/_univariate_linear_model_pod.py:_computeLinearModel"]}
{"id": "C192", "title": "The library does not change the objects of the caller and works on copies of the data", "statement": "Constructing, configuring, running and querying the metamodel POD classes (polynomial chaos, kriging, adaptive signal, adaptive hit miss) changes no sample and no distribution made by the caller; and what the caller later writes into the samples it passed does not change the data of the POD objects.", "quantifier": "for every history of constructors, setDistribution, setPolynomialChaosResult, run, getters and writes of the caller, any number of POD objects sharing objects, every data set and every numerical content", "why_tests_cant": "Sharing shows only when two references to one object are compared after a particular order of calls; a test looks at one object after one run.", "anchors": ["otpod/_pod.py:POD.__init__", "otpod/_pod.py:POD._run", "otpod/_polynomial_chaos_pod.py:PolynomialChaosPOD._buildChaosAlgo", "otpod/_polynomial_chaos_pod.py:PolynomialChaosPOD.setDistribution", "otpod/_kriging_tools.py:KrigingBase.setDistribution", "otpod/_adaptive_signal_pod.py:AdaptiveSignalPOD.run", "otpod/_adaptive_hitmiss_pod.py:AdaptiveHitMissPOD.run"]}
{"id": "C193", "title": "A design of experiments returned by an adaptive POD is a snapshot", "statement": "The samples returned by getInputDOE and getOutputDOE keep their content when the object is run afterwards, and writing into them does not change the object.", "quantifier": "for every history before and after the call, adaptive signal and hit miss, with and without thresholds and Box-Cox", "why_tests_cant": "The returned sample must be kept across a later run, and compared; usual tests read it once after the last run.", "anchors": ["otpod/_adaptive_signal_pod.py:AdaptiveSignalPOD.getInputDOE", "otpod/_adaptive_signal_pod.py:AdaptiveSignalPOD.getOutputDOE", "otpod/_adaptive_signal_pod.py:AdaptiveSignalPOD.run", "otpod/_adaptive_hitmiss_pod.py:AdaptiveHitMissPOD.getInputDOE", "otpod/_adaptive_hitmiss_pod.py:AdaptiveHitMissPOD.run"]}
{"id": "C194", "title": "At the size where the mean signal meets the threshold the linear POD is fair", "statement": "Let the signals lie on a straight line plus errors whose joint law is unchanged when all the signs are changed (independent symmetric errors, for example normal ones of any spread). At the flaw size where the line equals the detection threshold, the POD of the Gaussian model built from a random campaign falls below t exactly as often as above 1 - t, and its expectation is exactly one half; the same holds for the binomial model when no shifted residual ties with the threshold, which has probability one for normal errors.", "quantifier": "all numbers of observations, all sizes not all equal, all lines and thresholds, all joint laws of the errors invariant under change of signs, all levels t", "why_tests_cant": "a statement about the law of the estimate over all campaigns for every symmetric error law; tests see a handful of campaigns at one design", "anchors": ["otpod/_univariate_linear_model_pod.py:UnivariateLinearModelPOD._PODgaussModel", "otpod/_univariate_linear_model_pod.py:UnivariateLinearModelPOD._PODbinomialModel"]}
{"id": "C195", "title": "A run forgets the past of the object", "statement": "The outcome of run() and the results it leaves depend only on the data, the settings in force and the random numbers of this run: after any number of earlier runs, completed or not and with any settings, run() raises the same exception as on a new object with the same settings and random numbers, or leaves the same results; a run that raises leaves no result of an earlier one.", "quantifier": "all data, all settings, all histories of earlier runs (with any random numbers, completed or failed), all external functions", "why_tests_cant": "tests run each object once; the influence of the past needs all histories", "anchors": ["otpod/_univariate_linear_model_pod.py:UnivariateLinearModelPOD.run", "otpod/_quantile_regression_pod.py:QuantileRegressionPOD.run", "otpod/_kriging_pod.py:KrigingPOD.run", "otpod/_pli_pod.py:PLIBase.run", "otpod/_sobol_indices.py:SobolIndices.run"]}
{"id": "C196", "title": "In the quantile regression a signal counts only by its side of the fitted lines", "statement": "Replacing signals of a quantile regression POD by other values that lie on the same side of every fitted line (for instance making the largest signals larger still) changes neither the POD curve computed by run() nor the detection sizes at its levels, however far the signals are moved.", "quantifier": "all data sets, all levels, all replacements of any number of signals that cross no fitted line, regressions exact with unique solutions", "why_tests_cant": "a statement about all perturbations of all data sets; tests compare one fitted curve with stored numbers", "anchors": ["otpod/_quantile_regression_pod.py:QuantileRegressionPOD.run", "otpod/_quantile_regression_pod.py:QuantileRegressionPOD.computeDetectionSize"]}
{"id": "C197", "title": "A larger signal never lowers the linear POD", "statement": "Replacing one observed signal by a larger one (or all signals by larger ones) never lowers the POD of a linear model at any defect size.", "quantifier": "all data sets, all observations and all larger values, all thresholds and sizes", "why_tests_cant": "the effect of arbitrarily large changes of one signal, for all data sets", "anchors": ["otpod/_univariate_linear_model_pod.py:UnivariateLinearModelPOD._PODgaussModel", "otpod/_univariate_linear_model_pod.py:UnivariateLinearModelPOD._PODbinomialModel"]}
{"id": "C198", "title": "Recording every observation several times changes no POD", "statement": "When every observation of the data set is repeated k times, the fitted line and the POD curves (Gaussian, binomial, quantile regression) and the detection sizes derived from them are the same as for the data recorded once.", "quantifier": "all data sets, all numbers of repetitions, all thresholds and sizes", "why_tests_cant": "relates two data sets of arbitrary size; tests use one data file", "anchors": ["otpod/_univariate_linear_model_pod.py:UnivariateLinearModelPOD._PODgaussModel", "otpod/_univariate_linear_model_pod.py:UnivariateLinearModelPOD._PODbinomialModel", "otpod/_quantile_regression_pod.py:QuantileRegressionPOD.run"]}
{"id": "C199", "title": "With more defect sizes the metamodel POD and its detection sizes converge to the exact ones", "statement": "The POD curve of a metamodel is interpolated between the chosen defect sizes. When the gaps between the sizes and the simulation errors at the sizes get small, the curve, the curve at a confidence level and the detection sizes of computeDetectionSize converge to the exact ones over the whole range; with bounded second derivatives the error is at most M times the squared gap over 8, plus the simulation error.", "quantifier": "all continuous exact curves (strictly increasing for the detection sizes), all lists of sizes that cover the range, all simulated samples, all levels", "why_tests_cant": "uniform convergence over all refinements of the grid; tests use one grid", "anchors": ["otpod/_kriging_pod.py:KrigingPOD.run", "otpod/_kriging_tools.py:KrigingBase.getPODCLModel", "otpod/_kriging_tools.py:KrigingBase.computeDetectionSize", "otpod/_kriging_tools.py:KrigingBase.setDefectSizes"]}
{"id": "C200", "title": "A Box-Cox transformation with parameter one changes nothing", "statement": "When the Box-Cox parameter found for the data (and for the resamples of a bootstrap) is one, a run with boxCox=True that returns gives the same POD curve, the same simulated curves and the same detection sizes as a run with boxCox=False and the same random numbers; only the line and the threshold in the transformed scale are moved by a common constant. This holds for every residual hypothesis, with thresholds, and for the quantile regression.", "quantifier": "all data sets (positive or not), all thresholds, all residual factories, all random numbers; exact fits", "why_tests_cant": "an equality of two code paths for all data; tests never compare them", "anchors": ["otpod/_univariate_linear_model_pod.py:UnivariateLinearModelPOD.run", "otpod/_univariate_linear_model_pod.py:_computeLinearModel", "otpod/_quantile_regression_pod.py:QuantileRegressionPOD.run", "otpod/_pod.py:POD._run"]}
{"id": "C201", "title": "Indices returned by a perturbation analysis do not change afterwards", "statement": "A result obtained from getIndices stays what it was, whatever methods of the object are called afterwards.", "quantifier": "All objects, all arguments of getIndices, all histories of run and setDefectSizes calls that return or raise.", "why_tests_cant": "Tests read the returned array before running again; the array is a numpy view of the attribute, written in place by the next run.", "anchors": ["otpod/_pli_pod.py:PLIBase.getIndices", "otpod/_pli_pod.py:PLIBase.run", "otpod/_pli_pod.py:PLIBase.setDefectSizes", "otpod/_pli_pod.py:PLIBase._initializeResultMatrix"]}
{"id": "C202", "title": "Small changes of the data change the linear POD and its detection size little", "statement": "For every data set whose signals do not lie exactly on a line, the POD at a size, and the detection size when the level is crossed inside the range, move as little as desired when defects, signals and threshold are moved little enough.", "quantifier": "All numbers of observations, all defects that are not all equal, all signals, thresholds, sizes and levels; all moves of all of them together.", "why_tests_cant": "A test compares a few data sets; a jump needs the threshold to meet a residual exactly.", "anchors": ["otpod/_univariate_linear_model_pod.py:UnivariateLinearModelPOD._PODgaussModel", "otpod/_univariate_linear_model_pod.py:UnivariateLinearModelPOD._PODbinomialModel", "otpod/_pod.py:POD._computeDetectionSize"]}
{"id": "C203", "title": "Importing the package does not change which messages of the application are shown", "statement": "For every logger of the application and every level, a message passes the logger after the import of the package exactly when it passed before.", "quantifier": "All levels of the root logger, all chains of loggers with or without levels of their own, all message levels.", "why_tests_cant": "The test suite runs with one logging configuration and does not look at other loggers.", "anchors": ["otpod/__init__.py:_initializing"]}
{"id": "C204", "title": "from otpod import * gives the documented classes", "statement": "After from otpod import * every class of the user manual is bound, and each is an attribute of the package.", "quantifier": "All names.", "why_tests_cant": "The tests import the package by name; a star import is never tried.", "anchors": ["otpod/__init__.py:_initializing", "otpod/_pli_pod.py:PLIMean", "otpod/_pli_pod.py:PLIVariance", "otpod/_pli.py:PLI"]}
{"id": "C205", "title": "With more simulations the Gaussian confidence curve converges to a limit which covers exactly", "statement": "When the simulation size grows, the confidence curve of the Gaussian linear POD at a size converges almost surely to one number that depends only on the data: the value a simulated curve stays below with probability one minus the confidence level. For data from a linear model with Gaussian errors this limit lies below the true POD with probability exactly the confidence level.", "quantifier": "All numbers of observations from three on, all defects that are not all equal, all signals off a line (limit), all true coefficients and error deviations (coverage), all thresholds, sizes and confidence levels strictly between 0 and 1; almost every sequence of draws.", "why_tests_cant": "A test uses one simulation size and one seed; it can see neither the limit nor a probability.", "anchors": ["otpod/_univariate_linear_model_pod.py:UnivariateLinearModelPOD._PODgaussModelCl", "otpod/_univariate_linear_model_pod.py:UnivariateLinearModelPOD.getPODCLModel"]}
{"id": "C206", "title": "The reduced log likelihood is the profile likelihood of the Box-Cox model with an affine trend", "statement": "ReducedLogLikelihood(a, Y)(lambda) differs by a constant, the same for all lambda and all signals, from the largest log likelihood of the signals over all intercepts, slopes and positive standard deviations when the transformed signals are Gaussian around an affine trend; so the two have the same maximisers. When the transformed signals lie on a line the likelihood is unbounded and the call raises ValueError.", "quantifier": "All numbers of observations from three on, all defects that are not all equal, all positive signals, all lambda.", "why_tests_cant": "A test evaluates a few lambda; that no intercept, slope or deviation does better is a statement about infinitely many.", "anchors": ["otpod/_math_tools.py:ReducedLogLikelihood.__init__", "otpod/_math_tools.py:ReducedLogLikelihood._exec"]}
{"id": "C207", "title": "The figure of the Box-Cox likelihood belongs to the data, or the method says that there is none", "statement": "drawBoxCoxLikelihood shows the likelihood computed from the data the model was built with, the one whose maximiser is the reported parameter; when there is no likelihood to show it raises the documented exception.", "quantifier": "All data, thresholds and likelihood computations; all classes; boxCox True, False or a number; before and after run, any bootstrap samples.", "why_tests_cant": "Tests draw the figure and look neither at its content nor at the objects for which it cannot be drawn.", "anchors": ["otpod/_pod.py:POD.drawBoxCoxLikelihood", "otpod/_univariate_linear_model_analysis.py:UnivariateLinearModelAnalysis.drawBoxCoxLikelihood", "otpod/_univariate_linear_model_pod.py:UnivariateLinearModelPOD.run", "otpod/_quantile_regression_pod.py:QuantileRegressionPOD.run"]}
{"id": "C208", "title": "When the signals lie exactly on a line the linear POD is the exact step", "statement": "If all signals lie exactly on a line, every size whose signal on the line exceeds the threshold has POD one and every other size POD zero; the confidence curves say the same, and every detection size of an increasing line is the size where it meets the threshold. When the signals do not lie on a line no division by zero happens in the curves. A confidence curve raises exactly when there is no simulation.", "quantifier": "All numbers of observations, all defects that are not all equal, all lines, thresholds and sizes, all draws, simulation sizes, probability and confidence levels; the divisions are those of numpy.", "why_tests_cant": "Test data have noise; with none the residual deviation is zero and all quotients degenerate.", "anchors": ["otpod/_univariate_linear_model_pod.py:UnivariateLinearModelPOD._PODgaussModel", "otpod/_univariate_linear_model_pod.py:UnivariateLinearModelPOD._PODgaussModelCl", "otpod/_univariate_linear_model_pod.py:UnivariateLinearModelPOD._PODbinomialModel", "otpod/_univariate_linear_model_pod.py:UnivariateLinearModelPOD.getPODCLModel"]}
{"id": "C209", "title": "With more simulations the bootstrap confidence curve becomes the exact bootstrap quantile, or the run fails", "statement": "UnivariateLinearModelPOD with a residual law other than the normal one draws simulationSize resamples of the n observations with replacement. Without noise and saturation thresholds, if the POD model can be built on each of the n^n resamples, then almost surely every run with a large enough simulation size succeeds and the curve of getPODCLModel(c) is, at all defect sizes at once, exactly the (1-c)-quantile of the n^n resample POD curves, for each c with (1-c)*n^n not an integer: fewer than (1-c)*n^n resample curves lie below it, more lie at or below it. If there is a resample on which the model cannot be built, almost surely every run with a large enough simulation size raises and leaves the collection of curves as it was, so that a larger simulation size does not help.", "quantifier": "all observations, residual laws, external fits, confidence levels, sequences of independent uniform resamples (almost surely), attributes before the run", "why_tests_cant": "A test runs one simulation size with one seed; it cannot check the limit for all defect sizes and all confidence levels, nor that a rare resample is reached almost surely.", "anchors": ["otpod/_univariate_linear_model_pod.py:UnivariateLinearModelPOD._PODbootstrapModelCl", "otpod/_univariate_linear_model_pod.py:UnivariateLinearModelPOD.run", "otpod/_univariate_linear_model_pod.py:UnivariateLinearModelPOD.getPODCLModel"]}
{"id": "C210", "title": "The analysis can be built exactly on three kept observations with two different signals", "statement": "Let the lines be fitted and the residual laws be built. With at least two observations between the thresholds, the constructor of UnivariateLinearModelAnalysis succeeds if and only if at least three observations are kept and two kept signals differ, with or without Box-Cox transformation (for every parameter, given or fitted) and with or without thresholds; otherwise it raises ZeroDivisionError. When it succeeds, the tests of a censored fit exist exactly when a threshold was given. An exception of the factory of the residual law, on the uncensored or on the censored residuals, leaves the constructor unchanged, also on data where the tests would raise. With Box-Cox, data whose smallest kept signal is zero are refused with TypeError for every parameter.", "quantifier": "all observations, thresholds, Box-Cox parameters, factories, external fits and tests", "why_tests_cant": "Test data have many distinct signals; whether the transformation, the filter or the censored fit can turn admissible data into data that make a division fail needs all data and all parameters.", "anchors": ["otpod/_univariate_linear_model_analysis.py:UnivariateLinearModelAnalysis._run", "otpod/_univariate_linear_model_analysis.py:UnivariateLinearModelAnalysis._computeTests", "otpod/_math_tools.py:computeR2", "otpod/_math_tools.py:computeDurbinWatsonTest"]}
{"id": "C211", "title": "The seed of OpenTURNS determines the result of a linear POD run", "statement": "With the same seed of ot.RandomGenerator, data and arguments, two executions of UnivariateLinearModelPOD.run give the same POD function and the same confidence curves.", "quantifier": "all data, thresholds, residual laws, attributes before the run, and all states of the other generator (numpy)", "why_tests_cant": "A test that sets both seeds, or runs once, cannot see a dependence on the state of another generator; the dependence only shows on data or resamples on a line.", "anchors": ["otpod/_math_tools.py:computeLinearParametersCensored", "otpod/_univariate_linear_model_pod.py:UnivariateLinearModelPOD.run", "otpod/_univariate_linear_model_pod.py:UnivariateLinearModelPOD._PODbootstrapModelCl"]}
{"id": "C212", "title": "The result tables lead to the decisions of the library", "statement": "Each number of the tables of UnivariateLinearModelAnalysis and PODSummary is the computed one up to half a unit of the last displayed digit; a displayed p-value is below 0.05 exactly when the library warns about it; a displayed detection size has at least the requested probability of detection.", "quantifier": "all results of the analysis, all POD curves, levels and methods", "why_tests_cant": "Tests compare the tables with reference texts; rounding to the wrong side only shows for values near the limit or for small units.", "anchors": ["otpod/_univariate_linear_model_analysis.py:UnivariateLinearModelAnalysis._buildPrintResults", "otpod/_univariate_linear_model_analysis.py:UnivariateLinearModelAnalysis._printWarnings", "otpod/_pod_summary.py:PODSummary._buildPrintResults"]}
{"id": "C213", "title": "With more simulations the confidence curve of the quantile regression converges", "statement": "If QuantileRegressionPOD.run succeeds on the data, then for a large simulation size it also succeeds and the curve of getPODCLModel is the one of the exact bootstrap quantiles of the detection sizes.", "quantifier": "all data, thresholds, levels and confidence levels, almost all sequences of resamples", "why_tests_cant": "A test runs a few hundred simulations with one seed; the resample that makes the run fail may only come with another seed or a larger simulation size.", "anchors": ["otpod/_quantile_regression_pod.py:QuantileRegressionPOD.run", "otpod/_quantile_regression_pod.py:QuantileRegressionPOD.getPODCLModel"]}
{"id": "C214", "title": "The library leaves the display settings of the application as they were", "statement": "Calls of the library change neither the kinds of messages that OpenTURNS shows (ot.Log.Show) nor the interactive mode of matplotlib. (Violated: getResults and a censored fit that reaches its maximal number of iterations replace the flags by WARN alone, so that errors are hidden afterwards whatever the application had chosen; an adaptive run switches the interactive mode off when it returns and leaves it on when it raises after the first fit. Without these calls the settings are unchanged.)", "quantifier": "for all settings, all sequences of calls (exceptions caught), all analyses, outcomes of censored fits, adaptive environments, candidates, numbers of added points", "why_tests_cant": "The settings are global: a test that starts from the default settings does not see that they were replaced, and the effect depends on the history of calls.", "anchors": ["otpod/_univariate_linear_model_analysis.py:UnivariateLinearModelAnalysis.getResults", "otpod/_math_tools.py:computeLinearParametersCensored", "otpod/_adaptive_signal_pod.py:AdaptiveSignalPOD.run", "otpod/_adaptive_hitmiss_pod.py:AdaptiveHitMissPOD.run"]}
{"id": "C215", "title": "When the metamodel increases with the defect the POD curve does not decrease", "statement": "If for all values of the other parameters the metamodel (or the detection probability of the classifier) does not decrease with the defect, then the curve of getPODModel does not decrease. (Hit-miss: holds, also at each confidence level, since all defect sizes share one sample of the parameters. Chaos: violated when the residual deviation is positive, because the noise is drawn anew per defect size: the curve is 1 at a smaller and 0 at a larger size with positive probability; holds for residual deviation zero and for the exact POD. Kriging: violated, because the other parameters and the trajectories are drawn anew per defect size.)", "quantifier": "for all metamodels and classifiers, samples of the parameters, increasing defect sizes, sampling and simulation sizes, thresholds, confidence levels; probabilities over the Gaussian draws and the law of the parameters", "why_tests_cant": "Whether a simulated curve decreases depends on the draws; tests fix a seed and large sampling sizes, and look at few values.", "anchors": ["otpod/_adaptive_hitmiss_pod.py:AdaptiveHitMissPOD._computePOD", "otpod/_polynomial_chaos_pod.py:PolynomialChaosPOD._computePOD", "otpod/_kriging_tools.py:KrigingBase._computePODSamplePerDefect", "otpod/_adaptive_hitmiss_pod.py:AdaptiveHitMissPOD.getPODCLModel"]}
{"id": "C216", "title": "The graphs of an adaptive run are saved, one file per iteration, without losing earlier ones", "statement": "After setGraphActive(True, p, c, directory) a run saves the POD graph of each iteration in its own file of the directory, creating the directory if needed, and files that were there before are kept. (Adaptive kriging: one file per added point, file k shows the design with k added points, nothing else is touched. Violated: a second run starts again at number 1 and overwrites the files of the first; the hit-miss run does not create the directory, so when it is missing the run never returns and every later run of the object raises AttributeError.)", "quantifier": "for all environments, candidates, numbers of points, states of the object and of the directory, drawing functions, histories of two runs", "why_tests_cant": "The files depend on the state of the file system before the run; tests use a fresh existing directory and one run.", "anchors": ["otpod/_adaptive_signal_pod.py:AdaptiveSignalPOD.run", "otpod/_adaptive_signal_pod.py:AdaptiveSignalPOD.setGraphActive", "otpod/_adaptive_hitmiss_pod.py:AdaptiveHitMissPOD.run", "otpod/_adaptive_hitmiss_pod.py:AdaptiveHitMissPOD.setGraphActive"]}
{"id": "C217", "title": "On data without noise the chaos POD is the exact one", "statement": "When the recorded signals are exactly a combination of the functions of the basis (no noise, basis fitted by least squares with more than basisSize + 1 observations and an invertible Gram matrix), the metamodel is the physical model, the residual deviation is 0, getR2 and getQ2 are 1, every simulated coefficient vector is the true one, getPODModel at a defect size is the share of the simulated parameters whose physical signal exceeds the threshold and getPODCLModel is the quantile of such shares; the Gaussian draws have no influence.", "quantifier": "for all bases, transformations, true coefficients, designs with an invertible Gram matrix, thresholds, sampled parameters, Gaussian deviates, increasing defect sizes, confidence levels", "why_tests_cant": "Exact recovery involves all designs and all bases; a test uses one polynomial and a tolerance.", "anchors": ["otpod/_polynomial_chaos_pod.py:PolynomialChaosPOD.run", "otpod/_polynomial_chaos_pod.py:PolynomialChaosPOD.getR2", "otpod/_polynomial_chaos_pod.py:PolynomialChaosPOD.getQ2", "otpod/_polynomial_chaos_pod.py:PolynomialChaosPOD._computePOD"]}
{"id": "C218", "title": "The POD at a defect size does not depend on the other requested sizes", "statement": "With the same random stream, the value of getPODModel at a size given to setDefectSizes does not depend on which other sizes were given. (Hit-miss: holds, also at each confidence level. Chaos and kriging: sizes larger than the requested ones can be added without effect; violated when a smaller size is added, since the deviates are then shifted: the POD at the same size can change from 1 to 0. The law of the chaos value does not change.)", "quantifier": "for all metamodels and classifiers, parameter samples, random streams, pairs of increasing lists of sizes containing the size", "why_tests_cant": "Tests use one list of sizes per object, and compare with stored values.", "anchors": ["otpod/_adaptive_hitmiss_pod.py:AdaptiveHitMissPOD._computePOD", "otpod/_polynomial_chaos_pod.py:PolynomialChaosPOD._computePOD", "otpod/_kriging_tools.py:KrigingBase._computePODSamplePerDefect", "otpod/_kriging_pod.py:KrigingPOD.run"]}
{"id": "C219", "title": "A hit-miss run fits the classifier the user asked for", "statement": "run() trains, at every iteration, the classifier of the type set by setClassifierType with the parameters set by setClassifierParameters, and a wrong description can be corrected. (Holds for four lists with one value each; the type in force and the defaults are right. Violated: values after the first of a list are ignored without a message; setClassifierType, even with the type in force, discards the parameters given before; after a run with a wrong number of lists every later run of the object raises AttributeError, whatever is corrected.)", "quantifier": "for all training functions, data with two classes, options, histories of option calls, numbers of points to add", "why_tests_cant": "Tests use one value per list and options in one order; no test calls run again after a failed one.", "anchors": ["otpod/_adaptive_hitmiss_pod.py:AdaptiveHitMissPOD.run", "otpod/_adaptive_hitmiss_pod.py:AdaptiveHitMissPOD.setClassifierType", "otpod/_adaptive_hitmiss_pod.py:AdaptiveHitMissPOD.setClassifierParameters"]}
{"id": "C220", "title": "A hit-miss run succeeds on every data set accepted by the constructor", "statement": "After the constructor has accepted the data, run() builds a POD, also when all signals or none are above the detection threshold. (Violated: with one label only run() raises IndexError for the default classifier and ValueError for svc, and when points were to be added the object cannot be run any more. With both labels the run without added points succeeds exactly when the classifier can be built and trained.)", "quantifier": "for all training functions, data, options, candidate designs, numbers of points to add", "why_tests_cant": "Tests use data with both labels.", "anchors": ["otpod/_adaptive_hitmiss_pod.py:AdaptiveHitMissPOD.run", "otpod/_adaptive_hitmiss_pod.py:AdaptiveHitMissPOD._computePOD"]}
{"id": "C221", "title": "An error of the classifier moves the hit-miss POD by at most its mean error, and the detection size accordingly", "statement": "If the probabilities given by the trained classifier differ from the true probabilities of detection by at most e on average over the drawn parameters, at each requested size, the POD curve of run() differs from the curve made from the true probabilities by at most e at every size of the range; the curve at a confidence level differs by at most the largest error at the drawn points. If the true curve increases and reaches p-e and p+e inside the range, computeDetectionSize(p) returns a size between the sizes of the true curve for p-e and p+e, and these ends are attained; same for the confidence level.", "quantifier": "for all classifiers, true probabilities, drawn parameters, increasing lists of sizes, error bounds, levels, root finders meeting their contract", "why_tests_cant": "The true probabilities are unknown to a test using a trained classifier; the bound is over all classifiers and all sizes between the requested ones.", "anchors": ["otpod/_adaptive_hitmiss_pod.py:AdaptiveHitMissPOD._computePOD", "otpod/_adaptive_hitmiss_pod.py:AdaptiveHitMissPOD.computeDetectionSize", "otpod/_adaptive_hitmiss_pod.py:AdaptiveHitMissPOD.getPODCLModel"]}
{"id": "C222", "title": "An error of the chaos metamodel acts like a change of the detection threshold", "statement": "If the chaos metamodel, with the fitted and with every simulated vector of coefficients, is within e of the signal at the requested sizes and drawn parameters, then at every size of the range the POD of run() and its curve at a confidence level lie between those obtained from the signal itself, with the same draws, for the thresholds detection+e and detection-e; at a requested size the POD differs from that of the signal by at most the share of draws whose signal is within e of the threshold.", "quantifier": "for all bases, transformations, coefficients, signals, draws, increasing lists of sizes, error bounds, confidence levels", "why_tests_cant": "A test compares with one signal and one random state; the metamodel error at the drawn points is not known there.", "anchors": ["otpod/_polynomial_chaos_pod.py:PolynomialChaosPOD._computePOD", "otpod/_polynomial_chaos_pod.py:PolynomialChaosPOD.run", "otpod/_polynomial_chaos_pod.py:PolynomialChaosPOD.getPODCLModel"]}
{"id": "C223", "title": "The correction of the hit-miss classifier keeps the order of its probabilities", "statement": "After run() with points to add, a point to which the trained classifier gives a larger probability of detection does not get a smaller one from the corrected classifier used for the POD. (Holds when the initial classifier is better than chance on the final design: wrong detections times wrong misses less than right detections times right misses. Violated otherwise: when it is worse than chance the order is reversed.)", "quantifier": "for all training functions, physical models, candidate designs, runs with one batch of added points", "why_tests_cant": "The order is reversed only when the first classifier is bad on the points added around its own decision limit; tests use one data set.", "anchors": ["otpod/_adaptive_hitmiss_pod.py:AdaptiveHitMissPOD.run"]}
{"id": "C224", "title": "After a successful hit-miss run the probabilities of the POD are numbers", "statement": "When run() returns, the classifier used for the POD gives a number between 0 and 1 for every point to which the trained classifier gives a number. (Violated: if the initial classifier predicts the same class for all points of the final design a column of the confusion matrix is divided by zero and the whole POD is NaN, without an exception; if that happens before the last batch the next iteration raises IndexError. With one batch and both classes predicted the values are probabilities unless the classifier is exactly at chance level; then they are 0, 1, or NaN at one value.)", "quantifier": "for all training functions, physical models, candidate designs, numbers of points to add", "why_tests_cant": "A classifier predicting one class on its training data needs unbalanced data or a weak classifier; no test has one.", "anchors": ["otpod/_adaptive_hitmiss_pod.py:AdaptiveHitMissPOD.run"]}
{"id": "C225", "title": "The seed of OpenTURNS determines the result of a hit-miss run", "statement": "With the same seed of ot.RandomGenerator, data and arguments, two executions of AdaptiveHitMissPOD.run give the same POD. (Holds for the random forest with a random_state, the default. Violated for the type svc and for a random_state None: the classifiers then take their random numbers from the generator of numpy, and two runs give different PODs whenever the trained classifiers have different mean probabilities at a requested size.)", "quantifier": "for all data, physical models, training functions, options, candidate designs and samples of the parameters, and all states of the numpy generator", "why_tests_cant": "The tests that set a seed set the one of OpenTURNS and compare with a tolerance; the dependence on another generator shows up only when the state of that generator varies.", "anchors": ["otpod/_adaptive_hitmiss_pod.py:AdaptiveHitMissPOD.run", "otpod/_adaptive_hitmiss_pod.py:AdaptiveHitMissPOD.setClassifierType", "otpod/_adaptive_hitmiss_pod.py:AdaptiveHitMissPOD.setClassifierParameters"]}
{"id": "C226", "title": "Asking for more points extends the design of an adaptive run", "statement": "From the same object and the same candidates, the design (points and signals or labels) after AdaptiveSignalPOD.run or AdaptiveHitMissPOD.run with n points to add is the beginning of the design after the run with m points, m at least n. An adaptive kriging run with m points fails in the same way when the one with n points fails; a hit-miss run with a multiple of five points succeeds when the one with more points does.", "quantifier": "for all physical models, criteria, training functions, candidate designs, initial designs, all n and m", "why_tests_cant": "A test compares at most two particular numbers; the truncation of the last batch of five behaves differently for each remainder.", "anchors": ["otpod/_adaptive_signal_pod.py:AdaptiveSignalPOD.run", "otpod/_adaptive_hitmiss_pod.py:AdaptiveHitMissPOD.run"]}
{"id": "C227", "title": "The chaos POD does not depend on the units of measurement", "statement": "Writing the defects in another unit and origin, the other parameters in any other way that the transformation to standard variables follows (for the default uniform laws: positive factors and offsets), and the signals together with the detection threshold in another unit (also another origin, if the constants belong to the basis), PolynomialChaosPOD gives the same R2 and Q2, a residual deviation in the new unit, the same predictions in the new unit, and with the same random draws the same POD and the same POD at any confidence level at every defect size, including the sizes that are refused.", "quantifier": "for all data sets, bases with an invertible Gram matrix, positive factors, offsets, lists of sizes, random draws, numbers of simulations, confidence levels", "why_tests_cant": "A test uses one data set in one system of units; an absolute constant hidden in the fit or in the simulation shows up only in another one.", "anchors": ["otpod/_polynomial_chaos_pod.py:PolynomialChaosPOD.run", "otpod/_polynomial_chaos_pod.py:PolynomialChaosPOD._computePOD", "otpod/_polynomial_chaos_pod.py:PolynomialChaosPOD._buildChaosAlgo", "otpod/_polynomial_chaos_pod.py:PolynomialChaosPOD.getQ2"]}
{"id": "C228", "title": "The kriging POD does not depend on the units of measurement", "statement": "Writing the inputs in other units and origins (positive factors; every column of the design with a standard deviation above 1e-12 in both systems of units) and the signals together with the detection threshold in another unit and origin (the constants belong to the trend, as by default), the correlation lengths which maximise the reduced likelihood are the same, the estimated amplitude is the same in the new unit, and with the same random draws KrigingPOD gives the same POD and the same POD at any confidence level at every defect size, including the sizes that are refused.", "quantifier": "for all designs, signals, correlation functions, trends containing the constants, sets of admissible lengths, positive factors, offsets, lists of sizes, random draws, confidence levels", "why_tests_cant": "A test uses one data set in one system of units; an absolute constant (a bound on the amplitude, a fixed nugget, a threshold) shows up only in another one.", "anchors": ["otpod/_kriging_pod.py:KrigingPOD.run", "otpod/_kriging_tools.py:KrigingBase._buildKrigingAlgo", "otpod/_kriging_tools.py:KrigingBase._computePODSamplePerDefect", "otpod/_kriging_tools.py:KrigingBase._randomVectorSampling", "otpod/_kriging_tools.py:KrigingBase._estimKrigingTheta"]}
{"id": "C229", "title": "An error of the kriging model acts like a change of the detection threshold", "statement": "Let the mean of the kriging model be within e of the physical signal and its standard deviation at most v at the points simulated by KrigingPOD, and let the normal deviates of the trajectories be at most Z in absolute value. At a defect size the expectation of the simulated POD values lies between the shares of the simulated points whose signal exceeds detection + (e + Z v) and detection - (e + Z v); it differs from the share whose signal exceeds the threshold by at most the share of points with a signal within e + Z v of the threshold. If no simulated point has its signal that near, run() leaves the same curves and the same POD values as a run in which the signal itself replaces the model.", "quantifier": "for all designs, covariance models, trends, physical signals, error bounds, thresholds, lists of sizes, random draws", "why_tests_cant": "A test compares with the signal on a few simulated points; the bound has to hold for every model with that accuracy.", "anchors": ["otpod/_kriging_pod.py:KrigingPOD.run", "otpod/_kriging_tools.py:KrigingBase._computePODSamplePerDefect", "otpod/_kriging_tools.py:KrigingBase._randomVectorSampling"]}
{"id": "C230", "title": "The R2 of a quantile regression is between 0 and 1 and does not depend on the units", "statement": "After run() of a QuantileRegressionPOD, when the signals used in the regression are not all equal, getR2(q) is between 0 and 1 for every q in (0,1); it is 1 exactly when all observations lie on the fitted line of level q, and 0 exactly when no line is better than the percentile of the signals. Writing the sizes in another unit and the signals in another unit and origin does not change it.", "quantifier": "for all data with two different signals, levels in (0,1), positive factors, offsets", "why_tests_cant": "A test evaluates one data set; the equality cases and the independence of units quantify over all data.", "anchors": ["otpod/_quantile_regression_pod.py:QuantileRegressionPOD.getR2", "otpod/_quantile_regression_pod.py:QuantileRegressionPOD.run"]}
{"id": "C231", "title": "The detection sizes of a metamodel POD do not depend on the units of measurement", "statement": "Writing the inputs, the signals and the detection threshold in other units (as in the claims on the curves) and repeating the random draws, computeDetectionSize of PolynomialChaosPOD and of KrigingPOD, with or without a confidence level, gives the same exception or the same labels with the sizes written in the new unit, provided that each curve takes the probability level at most once.", "quantifier": "for all data, units, origins, draws, sizes, probability and confidence levels and all correct root finders", "why_tests_cant": "Comparing a few data sets in millimetres and inches shows rounded sizes for these data only; an interval taken from the data instead of the sizes, or a bound that is not converted, shows only for levels near the ends.", "anchors": ["otpod/_kriging_pod.py:KrigingPOD.run", "otpod/_polynomial_chaos_pod.py:PolynomialChaosPOD.run", "otpod/_kriging_tools.py:KrigingBase.computeDetectionSize"]}
{"id": "C232", "title": "The hit-miss POD does not depend on the scale of the signal", "statement": "Construction and run of AdaptiveHitMissPOD end with the same result (same exception, or same observations kept, same added points, labels, classifiers and confusion matrix) when the signals, the physical model and all given thresholds are expressed in another strictly increasing scale, for instance decibels; and when the signals and the values of the physical model are coded beforehand as 1 (above the threshold) or 0 and no threshold is given.", "quantifier": "for all observations, physical models (including those that raise), thresholds, strictly increasing scales, classifiers, candidates and numbers of added points", "why_tests_cant": "Tests compare one data set in one scale; a comparison of the label with >= instead of >, or a threshold used in the wrong scale for the added points only, shows only for special signals.", "anchors": ["otpod/_adaptive_hitmiss_pod.py:AdaptiveHitMissPOD.__init__", "otpod/_adaptive_hitmiss_pod.py:AdaptiveHitMissPOD.run"]}
{"id": "C233", "title": "Studying falling signals by negation gives the complementary POD", "statement": "If signals and thresholds are negated, the noise threshold becoming the saturation threshold and vice versa, UnivariateLinearModelPOD keeps the same observations, fits the opposite line with the same standard deviation, its Gaussian POD is one minus the original POD at every size, and its binomial POD is one minus the original POD wherever no residual lies exactly on the margin (and never above it).", "quantifier": "for all data with two distinct sizes (with thresholds: kept data not on a line), all thresholds, sizes and all correct optimisers", "why_tests_cant": "A test can compare a few sizes for one data set; a likelihood in which the two censored groups are not treated symmetrically, or a strict comparison on one side only, agrees with the tests when few observations are censored.", "anchors": ["otpod/_univariate_linear_model_pod.py:UnivariateLinearModelPOD.run", "otpod/_univariate_linear_model_pod.py:_computeLinearModel", "otpod/_univariate_linear_model_pod.py:UnivariateLinearModelPOD._PODgaussModel"]}
{"id": "C234", "title": "The order in which the parameters other than the defect are listed does not matter", "statement": "If the parameters other than the defect are listed in another order (with the covariance function and the trend, or the chaos basis, written in that order), KrigingPOD and PolynomialChaosPOD give the same predictions, validation coefficient and amplitude, the likelihood that is maximised is the same, each chaos coefficient stays with its function, and with the same random draws the run ends with the same exception or the same simulated PODs and curves. The default trend and covariance of kriging meet the condition.", "quantifier": "for all designs, signals, permutations, covariance functions, trends, bases, thresholds, sizes and draws", "why_tests_cant": "Tests use one order of the parameters; a scaling, a length or a column taken from the wrong parameter is invisible as long as the parameters have similar ranges.", "anchors": ["otpod/_kriging_tools.py:KrigingBase._buildKrigingAlgo", "otpod/_kriging_pod.py:KrigingPOD.run", "otpod/_polynomial_chaos_pod.py:PolynomialChaosPOD.run", "otpod/_polynomial_chaos_pod.py:PolynomialChaosPOD._computePOD"]}
{"id": "C235", "title": "The POD of an adaptive signal run is the kriging POD of its final design", "statement": "Without added points AdaptiveSignalPOD.run ends as KrigingPOD.run on the same data and settings (same exception, or same kriging result, simulated PODs and curve). When it returns after adding points, it gives the result of a KrigingPOD on the final design to which the user gives the covariance parameters and the trend estimated on the initial design, with their estimation disabled. Without a user distribution the uniform laws of the final design are those of the initial one.", "quantifier": "for all data, fitting libraries that keep given parameters, physical models, criteria, candidates, numbers of points and simulations", "why_tests_cant": "The two classes share no code for the run; a final simulation with the transformation, the law or the model of an earlier iteration gives plausible curves that no test distinguishes.", "anchors": ["otpod/_adaptive_signal_pod.py:AdaptiveSignalPOD.run", "otpod/_kriging_pod.py:KrigingPOD.run", "otpod/_kriging_tools.py:KrigingBase._estimKrigingTheta"]}
{"id": "C236", "title": "With enough simulated coefficients the confidence curve of the chaos POD no longer changes", "statement": "For a fixed sampling size n, when the number of simulated coefficient vectors grows, the POD curve at a confidence level becomes constant from some number of simulations on: at each defect size it is v/n, where v is the quantile of order 1 - level of the number of simulated signals above the threshold when the coefficients, the parameters and the residuals are random. The level must not be one of the finitely many values taken by the distribution functions of these numbers.", "quantifier": "for all sampling sizes, laws of the coefficients and parameters, bases, thresholds, residual deviations and lists of defect sizes, almost surely over independent simulations, for all such levels at once", "why_tests_cant": "The statement is about infinitely many simulations and holds outside of a null set; tests use one seed and a few dozen simulations and compare to stored values.", "anchors": ["otpod/_polynomial_chaos_pod.py:PolynomialChaosPOD.run", "otpod/_polynomial_chaos_pod.py:PolynomialChaosPOD._computePOD", "otpod/_polynomial_chaos_pod.py:PolynomialChaosPOD.getPODCLModel"]}
{"id": "C237", "title": "The sensitivity indices follow the order of the parameters", "statement": "Listing the parameters in another order, with the same sampled values, gives each parameter the same first and total Sobol indices (all four methods, all defect sizes, kriging and chaos) and the same perturbation law index, perturbed probability, variance and standard deviation, at its new place. The same defect sizes are kept, and the perturbation constructors end with the same exception or with the same deltas, each at the place of its marginal.", "quantifier": "for all numbers of parameters, permutations, POD functions, samples, sizes, methods, marginal laws, perturbed densities and deltas (one number for all marginals or one per marginal)", "why_tests_cant": "A block or column index that is off by one, or a delta used for a neighbouring marginal, gives plausible indices; the tests use symmetric settings and compare to stored numbers.", "anchors": ["otpod/_sobol_indices.py:SobolIndices.run", "otpod/_pli.py:PLI.run", "otpod/_pli.py:PLI._computePerturbedPDF", "otpod/_pli.py:PLIMeanBase.__init__", "otpod/_pli.py:PLIVarianceBase.__init__"]}
{"id": "C238", "title": "A further observation on the fitted line sharpens the linear POD", "statement": "Adding an observation whose signal is the one predicted by the fitted line leaves the line and the other residuals unchanged. The Gaussian POD then rises at every defect whose predicted signal exceeds the threshold, falls at every defect whose predicted signal is below it and stays 1/2 where the two are equal; the binomial POD changes in the same directions (unless it is 1 or 0). The detection size of a level of at least 1/2 does not get larger.", "quantifier": "for all data sets with at least three observations, distinct defects and non-zero residual variance, all positions of the new observation, thresholds and defects; for the detection size: all new defects inside the observed range and all root solvers", "why_tests_cant": "A comparison of two runs on nested data sets is not in the test-suite; a degrees-of-freedom or leverage error (n+1 instead of n, wrong centre) keeps each single curve plausible.", "anchors": ["otpod/_univariate_linear_model_pod.py:UnivariateLinearModelPOD.run", "otpod/_univariate_linear_model_pod.py:UnivariateLinearModelPOD._PODgaussModel", "otpod/_univariate_linear_model_pod.py:UnivariateLinearModelPOD._PODbinomialModel", "otpod/_pod.py:POD._computeDetectionSize"]}
{"id": "C239", "title": "With many simulations the kriging confidence curve converges", "statement": "The simulated parameter points of a defect size are fixed. When the simulation size grows, the POD curve at a confidence level converges in probability at that defect size: its limit is the quantile of order 1 - level of the law of the POD, which is the average over the trajectories of the normal law (or the Dirac mass) attached to each trajectory. If a trajectory detects some but not all of the points with positive probability, then this quantile exists and is unique for each level strictly between 0 and 1.", "quantifier": "for all kriging means and variances, thresholds, non empty lists of simulated points, increasing lists of defect sizes and levels, for almost all trajectories; the limit is over all simulation sizes", "why_tests_cant": "The limit is over infinitely many simulations and a statement about probabilities; tests fix a seed and compare a few sizes to stored values.", "anchors": ["otpod/_kriging_tools.py:KrigingBase._computePODSamplePerDefect", "otpod/_kriging_tools.py:KrigingBase._randomVectorSampling", "otpod/_kriging_tools.py:KrigingBase.getPODCLModel", "otpod/_kriging_pod.py:KrigingPOD.run"]}
{"id": "C240", "title": "With many observations the Gaussian confidence curve closes on the POD", "statement": "The signals follow a line plus independent errors of mean 0 and standard deviation s, as in C126. For almost all sequences of observations the following holds when the number of observations grows. The Gaussian POD curve at any confidence level and defect size is as close as wanted to the probability that a normal signal with the true mean and deviation exceeds the threshold, with a probability over the simulations that tends to 1. If the signals increase with the defect and sizes on both sides of the true detection size are observed, then computeDetectionSize(p, c) returns with a probability that tends to 1, and both its sizes are as close as wanted to the true detection size.", "quantifier": "for all laws of the defects and errors with two moments (non constant defects, centred errors not correlated to the defects), all intercepts, positive slopes, thresholds, probability levels, confidence levels, simulation sizes from 1 and precisions; almost all infinite sequences of observations", "why_tests_cant": "A limit over infinitely many observations and a statement about probabilities of the simulation; tests use one data set of fixed size.", "anchors": ["otpod/_univariate_linear_model_pod.py:UnivariateLinearModelPOD.getPODCLModel", "otpod/_univariate_linear_model_pod.py:UnivariateLinearModelPOD.computeDetectionSize", "otpod/_univariate_linear_model_pod.py:UnivariateLinearModelPOD._PODgaussModelCl"]}
{"id": "C241", "title": "A quantile regression run that raises leaves no confidence curve", "statement": "After run() of a QuantileRegressionPOD raised on a new object, getPODCLModel raises. After it succeeded, the confidence curve is built from the sizes solved on all resamples, and getPODCLModel raises if there are none.", "quantifier": "all data, settings, probability and confidence levels, all lists of resamples", "why_tests_cant": "Tests only look at runs that succeed; one resample that cannot be solved is enough to stop the run after the sample of sizes was allocated.", "anchors": ["otpod/_quantile_regression_pod.py:QuantileRegressionPOD.run", "otpod/_quantile_regression_pod.py:QuantileRegressionPOD.getPODCLModel"]}
{"id": "C242", "title": "With many observations the chaos confidence curve closes on the POD", "statement": "The signals are a combination of the basis functions of the chaos plus independent normal errors, as in C171. For almost all sequences of observations, with a probability over the simulated coefficients that tends to 1 when the number of observations grows, getPODCLModel returns after the run, for every sampling size, a curve that has a value at each requested defect size. When the sampling size grows this value converges to a limit, and the limit is as close as wanted to the true probability that the signal exceeds the threshold.", "quantifier": "for all numbers of linearly independent square integrable basis functions, coefficients, positive noise variances, thresholds, laws of the inputs, increasing lists of defect sizes, simulation sizes from 1, confidence levels and precisions; almost all infinite sequences of observations", "why_tests_cant": "A limit over infinitely many observations and a statement about the probabilities of the simulation; tests use one data set of fixed size.", "anchors": ["otpod/_polynomial_chaos_pod.py:PolynomialChaosPOD.run", "otpod/_polynomial_chaos_pod.py:PolynomialChaosPOD._computePOD", "otpod/_polynomial_chaos_pod.py:PolynomialChaosPOD.getPODCLModel"]}
{"id": "C243", "title": "The confidence curve of the chaos POD is below the true POD with the requested probability", "statement": "The signals are a combination of the basis functions plus independent normal errors. At each requested defect size the value of the curve of getPODCLModel(c), for a large sampling size, is at most the true probability that the signal exceeds the threshold, with a probability of at least c over the observations and the simulated coefficients.", "quantifier": "for all basis functions, coefficients, noise variances, thresholds, defect sizes, confidence levels, numbers of observations and of simulations", "why_tests_cant": "The coverage is a probability over infinitely many data sets, and the failure appears only for sizes whose POD is near one; tests look at one data set.", "anchors": ["otpod/_polynomial_chaos_pod.py:PolynomialChaosPOD.run", "otpod/_polynomial_chaos_pod.py:PolynomialChaosPOD._computePOD", "otpod/_polynomial_chaos_pod.py:PolynomialChaosPOD.getPODCLModel"]}
{"id": "C244", "title": "With many observations both detection sizes of the chaos POD are close to the true one", "statement": "Let the signals be a combination of the basis functions of the chaos plus independent normal errors, and let the true POD be continuous and strictly increasing over the interval of the defect sizes and equal to p at an interior size d0. For every precision there is a gap such that, when the requested defect sizes cover the interval with gaps of at most that value: for almost all sequences of observations, with a probability over the simulated coefficients that tends to 1 when the number of observations grows, and for all large sampling sizes, both the POD curve and the confidence curve have values over the whole interval, and computeDetectionSize(p) and computeDetectionSize(p, level) return sizes within the precision of d0, with the labels of p and of (p, level).", "quantifier": "for all bases, coefficients, error variances, laws of the inputs, thresholds, levels of probability and of confidence, numbers of simulated coefficients, fine lists of defect sizes and almost all observations and draws", "why_tests_cant": "a test compares one run with one number; it cannot show that the two sizes returned become exact for every true curve and every list of sizes that is fine enough", "anchors": ["otpod/_polynomial_chaos_pod.py:PolynomialChaosPOD.run", "otpod/_polynomial_chaos_pod.py:PolynomialChaosPOD._computePOD", "otpod/_polynomial_chaos_pod.py:PolynomialChaosPOD.getPODCLModel", "otpod/_polynomial_chaos_pod.py:PolynomialChaosPOD.computeDetectionSize"]}
{"id": "C245", "title": "The results of the quantile regression do not depend on the order of the observations", "statement": "Write the same observations in another order, and let the bootstrap resamples contain the same observations in any order. With or without thresholds and Box-Cox, if on each prepared data set every level has one best line: run succeeds or raises the same exception, and leaves the same POD curve, the same simulated sizes per level (hence the same curve at every confidence level) and the same Box-Cox parameter; computeDetectionSize at a level whose best line is unique returns the same size or raises in the same way. getR2 returns the same value at every level in (0,1), even when several lines are best.", "quantifier": "for all data sets, permutations, thresholds, lists of levels in (0,1), resamples and previous states of the object", "why_tests_cant": "a test permutes one data set; it cannot cover all permutations, nor the runs that raise half-way", "anchors": ["otpod/_quantile_regression_pod.py:QuantileRegressionPOD.run", "otpod/_quantile_regression_pod.py:QuantileRegressionPOD.computeDetectionSize", "otpod/_quantile_regression_pod.py:QuantileRegressionPOD.getR2", "otpod/_pod.py:POD._run"]}
{"id": "C246", "title": "With many observations both detection sizes of the kriging POD are close to the true one", "statement": "Let the physical signal be affine in the defect plus a sum of products of smooth functions of the inputs, without noise, let the user choose the AbsoluteExponential covariance model, and let its true POD be continuous and strictly increasing over the interval of the defect sizes and equal to p at an interior size d0. For every precision there is a gap such that, when the requested defect sizes cover the interval with gaps of at most that value: for almost all designs and draws and whatever the covariance parameters estimated in their search domain, when the sampling size and then the number of observations grow, run succeeds, the POD curve and the curve at every confidence level have values over the interval, and computeDetectionSize(p) and computeDetectionSize(p, level) return sizes within the precision of d0.", "quantifier": "for all signals of this form, laws of the inputs, thresholds, probability and confidence levels, fine lists of sizes, sequences of covariance parameters in a bounded range, and almost all designs and draws", "why_tests_cant": "a limit over growing designs for every signal; a test compares one design with one number", "anchors": ["otpod/_kriging_tools.py:KrigingBase.computeDetectionSize", "otpod/_kriging_pod.py:KrigingPOD.run", "otpod/_kriging_tools.py:KrigingBase.getPODCLModel"]}
{"id": "C247", "title": "The confidence curve of the hit-miss POD is below the true POD with the requested probability", "statement": "Let the classifier of AdaptiveHitMissPOD give exactly the probability of detection of each configuration. At each requested defect size and for a large sampling size, the curve of getPODCLModel(c) is at most the true POD with a probability of at least c over the drawn parameters.", "quantifier": "for all detection probabilities, laws of the parameters, increasing lists of sizes, confidence levels", "why_tests_cant": "coverage is a statement about all draws; one run shows one curve, and tests compare it with stored numbers", "anchors": ["otpod/_adaptive_hitmiss_pod.py:AdaptiveHitMissPOD.getPODCLModel", "otpod/_adaptive_hitmiss_pod.py:AdaptiveHitMissPOD.run"]}
{"id": "C248", "title": "Counting an input in the opposite direction changes no perturbation law index", "statement": "Take a Monte-Carlo simulation and its input distribution, replace some of the inputs x_j by -x_j, and build the PLI object again. PLIMeanBase, with the deltas of these inputs negated (sigmaScaled or not), gives the same perturbed probabilities, variances, indices and standard deviations for Normal inputs and for Uniform inputs with the perturbed mean inside the interval. PLIVarianceBase, with the same deltas, or with the deltas of these inputs negated if covScaled=True, accepts or rejects the same arguments and gives the same results for Normal and Uniform inputs, also when the requested variance is not reached. Other laws are refused in both.", "quantifier": "for all numbers of inputs, sets of reversed inputs, laws, tables of deltas, recorded evaluations, comparison operators, thresholds, root finders and optimisers meeting their contracts", "why_tests_cant": "an equality over all laws and perturbations between two analyses, with numerical searches in between; tests run one analysis on a few laws", "anchors": ["otpod/_pli.py:PLIMeanBase._perturbedMarginalPDF", "otpod/_pli.py:PLIVarianceBase._perturbedMarginalPDF", "otpod/_pli.py:PLIMeanBase.__init__", "otpod/_pli.py:PLIVarianceBase.__init__", "otpod/_pli.py:PLI.run"]}
{"id": "C249", "title": "The Sobol indices do not depend on the units of measurement", "statement": "Write the defects, the parameters, the signals, the threshold, the defect sizes and the two samples of the Sobol design in other units (each input with its own factor and origin, the signals with a positive factor and an origin), and repeat the random draws. SobolIndices.run then raises the same exception or none, keeps the same defect sizes in the new unit, and for every method the first order and total indices are the same.", "quantifier": "for all factors, origins, observations, bases, thresholds, sizes, samples, methods and random draws; violated for a kriging POD: its aggregated function evaluates the kriging result, built on normalised inputs, at the raw point, so moving the origin of one parameter changes the indices of another one", "why_tests_cant": "an equality between two analyses for every system of units; tests run one system, and the analysis on raw points still returns plausible numbers", "anchors": ["otpod/_sobol_indices.py:SobolIndices.run", "otpod/_sobol_indices.py:PODaggrChaos._exec_sample", "otpod/_sobol_indices.py:PODaggrKriging._exec", "otpod/_kriging_tools.py:KrigingBase._buildKrigingAlgo"]}
{"id": "C250", "title": "Studying the probability of not detecting gives the same Sobol indices", "statement": "Replace the observed signals and the threshold by the opposite ones, so that a detection becomes a miss, and repeat the random draws with the opposite sign. The aggregated POD functions of the chaos and of the kriging POD then return one minus the former values (for the chaos, when no simulated signal equals the threshold; for the kriging, also at points without variance). SobolIndices.run raises the same exception or none and keeps the same defect sizes, and the first order and total indices are the same for the four methods.", "quantifier": "for all output designs, methods, centring values, sizes and inputs, all observations, bases, thresholds and random draws; kriging means and variances arbitrary", "why_tests_cant": "an equality between two analyses over all designs; tests fix one design and compare with stored numbers", "anchors": ["otpod/_sobol_indices.py:SobolIndices.run", "otpod/_sobol_indices.py:PODaggrChaos._exec_sample", "otpod/_sobol_indices.py:PODaggrKriging._exec"]}
{"id": "C251", "title": "Studying falling signals by negation gives the complementary metamodel POD", "statement": "Replace the observed signals and the threshold by the opposite ones and repeat the random draws with the opposite sign. KrigingPOD.run and PolynomialChaosPOD.run then give a POD curve which is one minus the former one at every defect size, and getPODCLModel(level) gives one minus the former curve of getPODCLModel(1 - level); outside the range of the sizes both raise the same exception. (No simulated signal is exactly equal to the threshold.)", "quantifier": "for all observations, covariance models, trends and bases, thresholds, defect sizes, numbers of simulations, random draws without ties and confidence levels", "why_tests_cant": "an equality of two curves at every size and level between two runs; a bound of the detection test that is not symmetric, a quantile with another interpolation of the ranks or a Dirac at the wrong end would only show up in the comparison", "anchors": ["otpod/_kriging_tools.py:KrigingBase._computePODSamplePerDefect", "otpod/_kriging_tools.py:KrigingBase.getPODCLModel", "otpod/_kriging_pod.py:KrigingPOD.run", "otpod/_polynomial_chaos_pod.py:PolynomialChaosPOD.run", "otpod/_polynomial_chaos_pod.py:PolynomialChaosPOD._computePOD", "otpod/_polynomial_chaos_pod.py:PolynomialChaosPOD.getPODCLModel"]}
{"id": "C252", "title": "Studying falling signals by negation gives the complementary quantile regression POD", "statement": "Replace the observed signals and the threshold by the opposite ones, and each quantile p by 1 - p. QuantileRegressionPOD.run then gives a POD curve which is one minus the former one on the whole range from 0 to the largest defect, and computeDetectionSize(1 - p) gives the size which computeDetectionSize(p) gave.", "quantifier": "for all observations, thresholds, lists of quantiles, solvers and resamples; exact and unique regressions, no Box-Cox transformation and no censoring", "why_tests_cant": "an equality of two curves at every size between two runs; tests study growing signals only, for which the added end points look harmless", "anchors": ["otpod/_quantile_regression_pod.py:QuantileRegressionPOD.run", "otpod/_quantile_regression_pod.py:QuantileRegressionPOD.computeDetectionSize"]}
{"id": "C253", "title": "A larger detection threshold never raises the quantile regression POD", "statement": "With the same data, settings and resamples and a larger detection threshold, when QuantileRegressionPOD.run succeeds for both thresholds and all regression lines rise with the defect size, the POD curve and the curve of getPODCLModel at every confidence level are at no size of the observed range above the former ones.", "quantifier": "for all observations, pairs of thresholds, lists of quantiles, solvers, resamples and sizes; no Box-Cox transformation and no censoring", "why_tests_cant": "a comparison of two curves at every size for every pair of thresholds; it fails only where two regression lines have crossed, and an example whose lines do not cross shows nothing", "anchors": ["otpod/_quantile_regression_pod.py:QuantileRegressionPOD.run", "otpod/_quantile_regression_pod.py:QuantileRegressionPOD.getPODCLModel"]}
{"id": "C254", "title": "Exchanging hits and misses gives the complementary hit-miss POD", "statement": "Study the misses instead of the hits: the physical model answers the opposite, the observed labels are the opposite ones, pMin and pMax are replaced by 1 - pMax and 1 - pMin, and the classifier fitted on opposite labels gives the complementary probabilities. AdaptiveHitMissPOD.run then evaluates the physical model at the same points, and the probability of its final classifier is one minus the former one at every point.", "quantifier": "for all physical models, classifiers, argsort implementations, candidates, windows, designs and numbers of added points", "why_tests_cant": "a comparison of two runs; whether the chosen candidates are the same depends on the number of candidates in the window, and a test has to know the mirrored study to see the asymmetry", "anchors": ["otpod/_adaptive_hitmiss_pod.py:AdaptiveHitMissPOD.run"]}
{"id": "C255", "title": "A linear trend in the signals changes no test of the residuals", "statement": "Replace the signals y of UnivariateLinearModelAnalysis by c y + a + b x, where x are the defects, c is any factor other than zero (negative ones included) and a, b are any numbers. When both analyses succeed, the p-values of Anderson-Darling, Cramer-von Mises, Kolmogorov, zero mean, Breusch-Pagan, Harrison-McCabe and Durbin-Watson are the same. The R2 is free: from signals that are on no line one obtains any R2 in [0, 1) by adding a multiple of the defects, with the seven p-values unchanged.", "quantifier": "for all numbers of observations, defects not all equal, signals, factors, trends, R2 values in [0, 1), and all even and scale-free normality tests", "why_tests_cant": "the claim relates a family of runs indexed by three real numbers, and the second part asserts the existence of a trend for every target value", "anchors": ["otpod/_univariate_linear_model_analysis.py:UnivariateLinearModelAnalysis._computeTests", "otpod/_univariate_linear_model_analysis.py:UnivariateLinearModelAnalysis._run", "otpod/_math_tools.py:computeR2"]}
{"id": "C256", "title": "The perturbation law indices of an event and of its complement have opposite signs", "statement": "Run PLI on the same simulations for the event (output greater than the threshold) and for its complement (output less than the threshold), no output being equal to the threshold. If the index of an input and a perturbation is positive for the event (the perturbation makes it more probable), it is negative for the complement, and conversely.", "quantifier": "for all simulations, thresholds, inputs and perturbations", "why_tests_cant": "the two runs have to be compared; each one alone shows a plausible index, and the contradiction depends on where the simulations fell", "anchors": ["otpod/_pli.py:PLI.run", "otpod/_pli.py:PLI._computePfdelta", "otpod/_pli.py:PLI._computePLIndices"]}
{"id": "C257", "title": "The R2 does not tell which variable explains the other", "statement": "For defects and signals that are not constant, the R2 of UnivariateLinearModelAnalysis is the squared sample correlation of defects and signals. It is also the product of the slopes of the two regressions, and it is the same number when defects and signals are exchanged.", "quantifier": "for all samples of at least two observations with non-constant defects and signals", "why_tests_cant": "an identity between the results of two different fits, for all real data", "anchors": ["otpod/_math_tools.py:computeR2", "otpod/_univariate_linear_model_analysis.py:UnivariateLinearModelAnalysis._computeTests"]}
{"id": "C258", "title": "The Harrison-McCabe test notices a change of the variance in both directions", "statement": "Split the residuals given to computeHarrisonMcCabeTest in the half before and the half after the break point. Multiply the residuals of one half, the first or the second, by a factor. When the factor is large enough the p-value falls below any level, so that the analysis prints its warning.", "quantifier": "for all residuals that are not zero on the multiplied half, all numbers of observations and all simulated samples", "why_tests_cant": "a limit over all factors for all data; a test with a variance growing with the index sees the warning and says nothing about the other direction", "anchors": ["otpod/_math_tools.py:computeHarrisonMcCabeTest", "otpod/_univariate_linear_model_analysis.py:UnivariateLinearModelAnalysis._computeTests"]}
{"id": "C259", "title": "Reading the data file backwards changes no result of the analysis", "statement": "Give UnivariateLinearModelAnalysis the same observations in the reversed order, with the same simulated samples of the Harrison-McCabe test. The R2 and the p-values of all seven tests are the same, and the analysis fails on one file exactly when it fails on the other.", "quantifier": "for all data sets with defects that are not all equal, all tests of OpenTURNS that do not depend on the order of the sample, all simulated samples", "why_tests_cant": "a comparison of two runs for all data; the p-values of a usual example differ little between the two directions", "anchors": ["otpod/_univariate_linear_model_analysis.py:UnivariateLinearModelAnalysis._computeTests", "otpod/_math_tools.py:computeDurbinWatsonTest", "otpod/_math_tools.py:computeHarrisonMcCabeTest", "otpod/_math_tools.py:computeBreuschPaganTest"]}
{"id": "C260", "title": "A larger detection threshold never raises the perturbed probability", "statement": "Run PLI on the same simulations for the event output greater than the threshold, with a larger threshold. Neither the estimated probability nor the perturbed probability of any input and perturbation increases. Below all outputs the perturbed probability is the mean of the density ratios, from the largest output on it is 0.", "quantifier": "for all simulations, pairs of thresholds, inputs and nonnegative densities", "why_tests_cant": "a comparison of runs over all thresholds and all histories", "anchors": ["otpod/_pli.py:PLI.run", "otpod/_pli.py:PLI._getFailureSample", "otpod/_pli.py:PLI._computePfdelta"]}
