# Formal model of otpod: design

`/repo/otpod` (Python) is modelled in Lean 4 under `lean/Verif`.  The properties are in
`properties.jsonl`; `MANIFEST.json` maps each one to theorem names.

## Layout

* `Verif/Py/*`    small models of the Python/numpy primitives used by the code
  (exceptions as values, IEEE-like comparisons, sorting, reshaping, `linspace`, rounding, interpolation).
* `Verif/Model/*` one file per source file (or per function for the larger ones); every definition
  cites file and lines.
* `Verif/Spec/*`  specifications written without the helpers of the model.
* `Verif/Props/*` the property theorems, each with an `example` exhibiting a concrete non-trivial
  instance of its hypotheses.

## Modelling decisions

1. **Exceptions are values.**  Pure functions return `Except PyErr α`.  Methods that write attributes
   are modelled in `ExceptT PyErr (StateM σ)`: the state written before the `raise` persists, as in Python.
   The order of checks, assignments and calls is that of the source.
2. **Numbers.**  Python floats are idealised as elements of an ordered field (`ℝ`, or any linearly
   ordered field; `ℚ` for executable examples).  Where NaN, infinities or `sys.float_info.max` matter
   (censoring, the likelihood, criteria, confusion matrices) the type `F K = nan | ninf | fin x | pinf`
   with IEEE comparisons and arithmetic is used (no signed zero, no rounding).
   Where binary rounding itself matters (C17) the model uses exact dyadic values of the doubles.
3. **Externals are parameters.**  OpenTURNS, scipy, statsmodels and sklearn objects appear as function
   parameters.  When a theorem needs a fact about one, that fact is an explicit hypothesis
   (a contract) and an `example` gives an object that satisfies the contract.
   Mathlib objects replace externals when they exist: Gaussian law (`gaussianReal`, its cdf), binomial
   sums, `Real.log`, `Real.rpow`, `Real.exp`, interval integrals, matrices.
4. **Violated properties.**  When the code violates a property, the full statement stays in
   `properties.jsonl`; the manifest status is `partial`; the Lean files contain (a) a theorem with a
   concrete witness that the full statement is false for the code, and (b) the strongest restricted
   statement found true, suffix `_partial`.

## Trusted base

* Lean 4.33.0 kernel; axioms `propext`, `Classical.choice`, `Quot.sound` only (checked by the gate for every
  declaration; per-theorem lists are the output of `#print axioms`, none other appears).
* The hand translation from Python to Lean (definition by definition, with line citations).
* Floats idealised as in item 2; contracts of item 3.
* **Modelled:** the functions named in the table below.
* **Not modelled:** drawing code beyond its argument checks and axis limits, printing/logging, file output,
  matplotlib, the numerical optimisers and solvers themselves (Brent, fmin, MINIMUM of kriging likelihood),
  random generators, the fitting of kriging/chaos/classifier objects.

## Properties

For each property: what is modelled; how it is proved.  `V` marks a property that the code violates.

| id | model | proof |
|----|-------|-------|
| C01 | `filterCensoredData` on `F K`, boolean masks | case split on IEEE comparisons, multiset induction on the data list |
| C02 | same | masks of the same list: `filter`/`zip` lemma, sublist |
| C03 V | same; None replaced by ±max float | restricted to signals strictly inside the float range; witnesses `-inf`, `-max` |
| C04 V | same | witnesses: NaN signal lost, sat ≤ noise duplicates; count formula for arbitrary thresholds |
| C05 V | loop of `computeLinearParametersCensored` over a stream of draws | induction on the loop; raise iff start and draws 1..99 infinite; witness: 100th draw succeeds but raises |
| C06 | `MLE` in `F ℝ` with the Gaussian cdf | exp(-objective) = product of `gaussianPDFReal` and `gaussianReal` measures |
| C07 | `computeR2` | sums of squares; OLS normal equations |
| C08 V | `computeZeroMeanTest` after OLS | residual mean zero ⇒ statistic 0 ⇒ p = 2·cdf(0) = 1; partial: value for arbitrary residuals |
| C09 | the three statistics | (a-b)² ≤ 2a²+2b²; projection inequality; counting |
| C10 V | p-value formulas with the Gaussian cdf | both formulas are even in the deviation; witness; two-sided value correct |
| C11 | band matrix, traces | matrix algebra over `Fin n` |
| C12 | constructors on shapes | decision procedure |
| C13 V | λ handling in `_run` / `_computeLinearModel` / analysis `_run` | witness; holds for the analysis |
| C14 | Box-Cox on ℝ | strict monotonicity of (x^λ-1)/λ and log |
| C15 V | shift | witness min = 0 and low threshold; positive when min<0 or min>0 and thresholds > min-100 |
| C16 | `_computeDetectionSize` with a root-finder contract | case analysis; IVT shows contract satisfiable |
| C17 V | `int(p*100)` on exact doubles | witness 0.29; correct whenever the rounded product is not below the integer |
| C18 | same as C16 | strict monotonicity |
| C19 | empirical ccdf | counting, monotone |
| C20 V | Beta quantile via binomial tail | identity P(Bin(N,p) ≤ n)=c: strictly-more instead of at-least; Clopper-Pearson identity for n=N fails |
| C21 V | same | antitone in c for n<N; witness for n=N (increasing) and n=0 (CL > POD) |
| C22 | 2×2 normal matrix inverse | algebra; Gaussian measure of a half line |
| C23 V | same | exact derivative-free criterion; region and witness |
| C24 | order statistic quantile | sorting lemmas |
| C25 V | indexing of the curve list | IndexError iff larger; exact set otherwise |
| C26 | constructor decision table | all Boolean combinations as a theorem on options |
| C27 | closed form OLS | decomposition of the sum of squares |
| C28 | state machine | induction over call lists |
| C29 | piecewise-linear interpolation | interval lemmas |
| C30 V | λ field written by each `_run` | induction over bootstrap; final λ is that of the last resample |
| C31 V | level passed to `fit` | p vs 1-p: equal iff p = 1/2 |
| C32 | setDefectSizes | sort permutation, iff |
| C33 V | same with state | witness; partial: state after failure characterised, count invariant |
| C34 | interpolation | as C29 |
| C35 V | run/set/get state machine | witness; holds when no setter is called after run |
| C36 | reshape order='F' | index arithmetic |
| C37 V | law selection | branch analysis; mass of Normal outside [0,1] positive |
| C38 | bordered matrix inverse | block linear algebra |
| C39 V | both Q2 | inequality; ratio n/(n-1) |
| C40 | hat matrix | Sherman-Morrison via normal equations |
| C41 | normalisation | sums |
| C42 V | run with user result | UnboundLocalError / AttributeError proved; works with distribution |
| C43 V | cached strategy / distribution | witness, first-run partial |
| C44 | range checks | decision |
| C45 | adaptive loop | invariant by induction |
| C46 V | same | invariant at loop boundaries; witness on exception |
| C47 V | metamodel fixed before loop | induction; witness |
| C48 V | index selection over `F` criteria | witness stale / unbound; correct when some finite criterion < 1e9 |
| C49 | Box-Cox inverse | round trip |
| C50 | hit-miss loop | invariant by induction |
| C51 | selection | sort/argsort contract |
| C52 V | fallback | empty for all vectors; IndexError |
| C53 V | quartile indices | distinct iff ≥ 5 eligible; witness |
| C54 | clip | order |
| C55 V | closures as environments | witness; partial first two iterations |
| C56 V | setters | invariant without pmin<pmax; witness pmin>pmax |
| C57 | index formula | order |
| C58 | weights | cancellation |
| C59 V | operator dispatch | exact for strict; ties witness |
| C60 | covariance | Cauchy-Schwarz over finite sums |
| C61 | tilted densities | integrals |
| C62 | tilted densities | integrals / finite quadrature |
| C63 V | shapes and scaling | identities; docstring of the POD wrapper disagrees |
| C64 | integral identity | measure theory |
| C65 V | run loop and getters | induction; stale witness |
| C66 | slices | rfl-like over functions with errors |
| C67 | column selection | filter lemma |
| C68 V | dead tolerance branch, broadcasting, missing normalisation | witnesses; exact behaviour theorem |
| C69 V | block layout | index arithmetic; witness after setDefectSizes |
| C70 | state machine | induction over histories |
| C71 V | table builder | rows theorem; witness activated-after-run |
| C72 V | draw sequence with exceptions | witness; works with explicit level |
| C73 | table rows | full table theorem |
| C74 | accessors | decision |
| C75 V | warnings | iff with R2; witness |
| C76 | progress bar | arithmetic of round-half-even |
| C77 V | limits | iff nonneg; witness |
| C78 | MRO search | list induction |
| C79 | setters | decision |
| C80 V | constructor dispatch | decision; adaptive witness |
| C81 V | constructor check before the filter | witness; proved without thresholds |
| C82 V | quantile levels and simulated defects as separate attributes | exact curve for the new levels; witness |
| C83 | solver contract on lines | sign analysis |
| C84 V | one normal deviate per trajectory | moments; witness |
| C86 V | two attributes read by the plot | history witness; proved right after run |
| C87 V | floor of 100p; IEEE rounding to nearest as a contract (Py/Double) | exact for whole percents; witnesses |
| C88 V | text as list of lines | splitOn/intercalate; title not a line |
| C85 V | interpolation after sorting | monotone interpolation, order statistics monotone in the sample; crossing witness |
| C89 | criterion over simulated samples | variance + bias² identity, bounds |
| C90 | drawPOD as a record of curves, lines and marks | solver contract, continuity |
| C91 V | same, bounds of the user | general witness; default bounds proved |
| C92 V | adaptive loop with the drawing step | induction; witness level not reached |
| C93 V | both linear fits as functions of the same environment | case analysis; witness given λ |
| C94 | POD as function of the data | affine equivariance of least squares |
| C95 V | least squares residuals under white noise | trace of I - H; chaos divides by n-p-1 |
| C96 V | draws as functions of the random streams | independence of images; covariance of squares |
| C97 | bilateral interval as a contract | Gaussian mass, strict monotonicity of Phi |
| C98 V | plot as list of curves; dtype of the abscissa array kept | broadcasting error for 2-d deltas; truncation for integers |
| C99 V | image extent and cell grid | affine positions; reversed / unequal lists |
| C100 | run of the linear POD with bootstrap resamples | each curve by re-running the model on the resample; CDF monotone |
| C101 V | same run, failure propagated | exact condition; resample of censored observations only |
| C102 V | laws as measures: composed, merged, rebuilt from marginals | pushforward by tail; iIndepFun iff product law |
| C103 V | POD and PLI probabilities as measures of events | Fubini, Gaussian tail; degenerate probabilities |
| C104 V | default marginals with the precondition of ot.Uniform | bounds are least and greatest elements; constant column |
| C105 V | constructor of the hit-miss class composed with its run | C50 for the added points; missing model |
| C106 V | history of the memoized function, cleared or not | filter of an appended list; positive surplus |
| C107 | estimate as function of the sample, laws with densities | Fubini for product densities, change of density, linearity |
| C108 | Monte-Carlo PODs as functions of random draws | linearity, law of a pair; layout theorem C36 |
| C109 | indicator sums under two joint laws with equal marginals | upper sets are nested, P(A∩B) ≤ min |
| C110 | mixture of Gaussians and point masses | second moments of the components |
| C111 V | run with IEEE standard error and precondition of ot.ChiSquare | sign of n-p-1; NaN and infinite noise |
| C112 V | simulated curves as functions of a normal vector | convolution of Gaussians, Fubini; strict inequality for the chaos |
| C113 | coefficients of least squares and their draws | matrix algebra, second moments of white noise |
| C114 V | POD curves as functions on the line | limits of Phi; bound of the ratio by Cauchy-Schwarz |
| C115 | objective of the censored fit | coercivity in (scale, line), continuity on a box; scale to 0 on an exact fit |
| C116 V | two runs of the linear fit with exact numerical routines | unique minimum n/2 (u - 1 - log u), least squares |
| C117 V | linear fit on lists of observations up to permutation | sums and counts are permutation invariant; one transposition for the tests |
| C118 | simulated POD values as means of indicators | Popoviciu, pairwise independence, two-way covariance table, Chebyshev |
| C119 | PLI estimates of the first N draws | strong law, continuity of the index |
| C120 | composition of base run (Box-Cox, filtering) with the censored fit and with the analysis | transformed censored data, exact minimiser maximises the product of the observation likelihoods |
| C121 V | fitter / regression objects with the methods they have, update step, loop with it | case analysis; induction over the loop for the parameters kept |
| C122 V | attributes `_covarianceModel`, `_basis`, `_Q2` around a fit | case analysis, idempotence of the fit |
| C123 | fitter settings, box design from the unit cube | contracts of the fitting routine and of the Sobol sequence |
| C124 V | normalisation and bordered-matrix formula | variance of affine images, unbiasedness of the LOO weights, block inverse of the scaled matrix |
| C125 | entries of a run as functions of empirical means | central limit theorem, delta method with exact slopes, Slutsky, portmanteau |
| C126 | closed-form fit and both curves of a data set | strong law for five moments, squeeze of the binomial curve between frequencies of bands |
| C127 V | `podBinomialCl` of random residuals | count is binomial (patterns of exceedances), first count above the level |
| C128 | `gaussClOf` with the draws of Normal and Chi as parameters | law of the fit (rotation of the Gaussian errors), data and simulation share one pivot, rank among exchangeable values is uniform, quantile against count |
| C129 V | `gaussDetectionOf` = `computeDetectionSize` on the range of the defects with the Gaussian POD and its confidence curve | quantiles follow translations, so the confidence curve is continuous and increasing when the simulated curves are; then the events of C128 at the size a_p |
| C130 V | `gaussDetectionOf … none` on growing data sets | the largest of N square-integrable defects is negligible before √N, so the standard error of prediction converges even at the returned size; the root equation then gives the limit |
| C131 V | `Settings`, `SetOp`, `setStep` (one record for all the classes), getters | induction over histories: each component is the last accepted request |
| C132 V | `curveSizes` = `computeDetectionSize` behind `PodFns.size`, `sizeRow` | branch analysis; violation for every curve |
| C133 V | `filteredWarning`, `resultsText` on characters | `splitOn_intercalate` for the lines; infix of the eight possible messages |
| C134 | `SumObj`, `sumCall` over `summaryRun`, `configure` | reverse induction on the history, `foldl_last`, `summaryRun_slot` |
| C135 | `meanPert`, `varPert` (Model/Pli) | exponential tilting: `klDiv Q P = klDiv Q R + klDiv R P` for laws with the same moments |
| C136 | `computeTests` (Model/Tests) with numpy divisions | residuals scale with the signals; the residual projector does not depend on the unit of the defects |
| C137 V | `harrisonMcCabePValue` (Model/Tests) | exchangeability of the observed and simulated statistics (ties allowed); for n = 3 the residuals lie on a line |
| C138 | `pliWeights`, `pfDelta`, `pliIndex` (Model/Pli) | the perturbed coordinate is integrated out; C119 |
| C139 V | `pliEntry`, `meanPert` | Markov inequality; all points at the new mean |
| C140 V | `pliWeights`, `meanPert` | translation of the Normal density; weights `exp(((x-mu)^2-(x-delta)^2)/(2 sigma^2))` |
| C141 | `linearPodRun` (Model/Bootstrap), `chaosRunSim` (Model/ChaosRun), `qrDetectionSize` | the fit does not depend on the threshold; tails, quantiles, interpolation are monotone |
| C142 V | `podLaw`, `mixtureLaw` | mean of the mixture; C37 |
| C143 V | `qrPodRun`, `qrSolveAll`, `qrBootstrap` (Model/QrRun) | intermediate sign condition of each line, induction over levels and bootstraps; a pair of parallel lines |
| C144 | `qrPodRun`, `quantLoss` | vertical move of an optimal line; counting |
| C145 | `qrPodRun`, `qrDetectionSize` | equivariance of the pinball loss, of the solver on a line, of `interp1d` |
| C146 V | `sobolDesign`, `jansenTotal`, `krigExec`, `chaosExecSample` (Model/SobolDesign, Model/Sobol) | layout of the design; expectation of the squared differences of independent Bernoulli means |
| C147 V | the same | strong law of large numbers; Jansen identity (half the mean squared difference is the expected conditional variance); moments of the simulated POD |
| C148 V | `sobolEstimates`, `sobolDesign`, `krigExec`, `chaosExecSample` (Model/SobolMethods, Model/SobolDesign, Model/Sobol) | strong law for products and squares; moments of the POD on exchanged draws through conditional means |
| C149 | the same | projection on one coordinate and on the others; orthogonality of the centred projections |
| C150 | `chaosRunSim`, `hitMissRunSim`, `getPODCLModel` (Model/ChaosRun, Model/HitMissRun, Model/Metamodel) | strong law for the frequencies; continuity of the interpolation and of the sample quantile |
| C151 V | `hitMissRunSim`, `krigingRunSim`, `getPODCLModel` | Markov inequality for the interpolated sample quantile; rank of the quantile |
| C152 V | `hitMissRunSim`, `getPODCLModel` | law of large numbers for the empirical distribution function; rank of the quantile |
| C153 V | `InBox`, `BoxMin` (Model/PliBox), `varPert`, `meanPert`, `pliVarianceInit`, `pliMeanInit` (Model/Pli) | intermediate value theorem on the unit interval and change of variable; uniqueness of the multipliers by monotony; bound of the second moment |
| C154 V | `adRun`, `hmRun` (Model/AdaptiveSignal, Model/HitMiss) | determinism of the scan; invariant of the classifier variables along the loop |
| C155 P | `bcLogLik` (Model/BoxCoxLik) | the gap of two transformed signals is the integral of exp(λt) between their logarithms: positive and strictly convex in λ, coercive after centring |
| C156 V | `computeLinearModel`, `runGaussPod`, `runBinomialPod` (Model/LinearRun, Model/BoxCoxLik) | C155 and C94; for two values the exponent is zero by symmetry, the transformed threshold is a ratio of logarithms |
| C157 V | `computeLinearModel`, `bcLogLik` | derivative of the convex criterion at 0 is 2n times the third central moment; slopes of a convex function; strict convexity of exp on three points |
| C158 | `MLE`, `mleObjective`, `computeLinearModel` | Olsen's coordinates (b0/s, b1/s, 1/s); log-concavity of the normal distribution function from the Mills inequality; strict convexity; local minimum of a convex function |
| C159 | `computeLinearModel`, `runGaussPod`, `runBinomialPod` | conversion of the parameters (c b0 + e - c b1 t/k, c b1/k, c s) changes the objective by a constant; uniqueness from C158; groups commute with the change of units |
| C160 V | `computeDetectionSize`, `podGauss`, `podBinomial`, `podBinomialCl`, `qrDetectionSize` | bracketing contract of the root finder on curves with jumps; the Gaussian ratio turns at most once, at a zero of an affine function; the pinball losses of two levels differ by a multiple of the sum of the residuals; dual certificates for the crossing lines |
| C161 | `krigMean`, `krigVar`, `randomVector`, `podLaw` | the right hand side of an observation is a column of the bordered matrix; weights of minimal error variance |
| C162 V | `tempMean`, `tempVar`, `designMean` | the old dual coefficients with a zero for the new point solve the larger system; weights of the smaller design are admissible for the larger one; explicit solution for two and three points |
| C163 V | units of the inputs as a map of marginals and history (`inUnit`, `histInUnit`) | densities divide by the unit, so weights are equal; uniqueness of the root (C61) and of the multipliers (C153) transports the Uniform case; C153 gives the failing units |
| C164 V | `SobolAn` (sizes, method, stored algorithm), `drawSobol`, `drawAggregated`, `getSensitivityResult` | induction over histories; injectivity of the title; one negative Jansen estimate |
| C165 V | `countFl`, three ways of computing the complementary CDF with a rounding `fl`, `podBinomialClFl` | relative error `2^-53`; error of the running sum by induction; `cl_count_lt`; exact rounding of the two examples |
| C166 V | `drawLinearFig`, `drawResidualFig`, `drawQuantileFig`, `drawChaosFig`; `painted`: union of the segments between consecutive vertices | induction on the vertices: collinear points in any order paint one segment, sorted abscissas paint a graph |
| C167 V | `meanAbscissa`, `varAbscissa`, `abscissas`: loop of `drawIndices` with `hellinger=True` | exponential tilting: mean of the statistic strictly increasing, log-affinity monotone on both sides of 0 (derivatives under the integral); Gaussian products; uniqueness of the box minimiser (cosh, derivative of the dual) for the violation |
| C168 | the run of C120 (`computeLinearModel`, `censoredFit`) on growing samples | Olsen coordinates make the loss convex; population minimiser unique by Gibbs (density ratio, strictness of `-log`); a convex loss whose averages converge at countably many points has converging minimisers (`convex_argmin_ae`); the run succeeds for almost every sample from some size on (`sample_good`) |
| C169 V | `runBinomialPod` on the run of C168 | slope close to the truth (C168) squeezes the count between two bands; law of large numbers under the law conditioned on being kept; slices of the product law (association of two half lines) for the bias |
| C170 | the run of C143-C145 (`qrPodRun`) and `qrDetectionSize` on growing samples | pinball loss convex; expected loss of a line minus that of the quantile line bounded below by indicators (unique minimiser); `convex_argmin_ae`; zero of a close line; piecewise linear curve Lipschitz |
| C171 | `fittedChaos` = least squares coefficients and `_stderr` of the first N observations, run through `chaosRunSim` | averages of basis products converge, inverse continuous; residual sum of squares through the averages; dominated convergence of the predictive probability; composed with C150 |
| C172 | `linearPodRun` with `fitLaw` a kernel mixture (`KernelFactory`) | mixture squeezed between shifted empirical laws, C126 at shifted thresholds avoiding the countably many atoms; sizes by monotonicity and `BracketSpec` |
| C173 | `podBinomialCl` against `podBinomial`, `computeDetectionSize` with two curves | the confidence value solves a binomial tail equation; Chebyshev with `bernsteinPolynomial.variance`; limit by C126, sizes by monotonicity of both curves |
| C174 V | `breuschPaganPValue`, `harrisonMcCabePValue` on residuals of random pairs | BP: statistic as a function of the empirical moments of order 4, strong law; HM: reversing the data exchanges the statistic with its complement, so it exceeds 1/2 with probability 1/2, independently of the simulated median |
| C175 | `breuschPaganPValue` with the chi-square(1) cdf | central limit theorem for the centred cross moment of (x, e^2), Slutsky: the difference with the residual version vanishes in probability, the variance estimates converge |
| C176 | `dwMean`, `dwVar` (traces of `solve(X'X, B'X)`) against the law of `durbinWatsonStat (olsResiduals ..)` | residuals = projector M times noise; M A M diagonalised in an orthonormal basis, so the statistic is a ratio of weighted sums of squares of iid normals; moments of the ratio from the invariance of the normal law under reflections; Chebyshev |
| C177 V | `durbinWatsonPValue` with numpy division (NaN, inf) | closed form of the mean (2 + (2 - von Neumann ratio of x)/m) and bounds of the variance between 4(m-4)/(m(m+2)) and 4/(m+2); three observations: one-dimensional residual space |
| C178 | `durbinWatsonPValue` of the residuals of a stream of dependent observations | strong law for functions of a moving window (residue classes of disjoint windows, `window_strong`); statistic -> 2(1 - c/v), mean -> 2 and variance -> 0 by the closed forms of C177 |
| C179 | `durbinWatsonPValue` of the residuals under normal errors | the event is the union of two tails of quadratic forms of iid normals (axes of C176); central limit theorem for weighted sums proved by characteristic functions (`weighted_clt`), fourth moment of the normal law from its generating function |
| C180 | Model/KrigSim.lean: podSamplePerDefect with the draws as parameters, krigingDesignRun on designMean/designVar | signals are in the reproducing space of the exponential kernel (integral of the features on the line, Cauchy-Schwarz, products of kernels by Schur), error at most norm times the kriging deviation, deviation bounded by an estimator with one near observation and fixed reference points; dense design from the strong law; fourth moments for the draws |
| C181 V | `qrPodRun` with noise or saturation and `qrDetectionSize` on the kept data | on two sizes the loss separates, so the line splits the kept signals of each size (subgradient count of C144 on the group); law of large numbers for the groups; right-continuity of the distribution function gives the gap |
| C182 | `analysisTests`, `normalFitCdf` (least squares residuals, normal law fitted on them, `computeTests`) | consistency of C126 at a point where the law of the errors differs from the normal law with the same moments; a gap at one point gives a lower bound for the Cramer-von Mises and Anderson-Darling distances |
| C183 V | `analysisFull` (fits, laws of the residuals, tests for both fits) on `analysisRun` and `computeTests` | consistency of the censored line (C168), law of large numbers for the kept errors, sign of the truncated mean by comparing with an indicator of the size, tail of the Student law uniform in the degrees of freedom |
| C184 | `analysisConfInt` (`conf_int(0.05)` on the matrix with a column of ones and the defects) | rotation of the normal errors to two directions of the regression (`two_dir_law`), Student law from a normal and an independent Chi variable |
| C185 V | `analysisConfIntRun` (the interval of the observations kept by `analysisRun`) | swapping two kept errors: the mean kept error strictly decreases with the centre (`window_mean`), so size and error are correlated on the kept observations (`kept_cov`); law of large numbers |
| C186 | `gaussDetectionOf` | the level is reached where a multiple of the convex standard error minus an affine function changes its sign; a convex or concave function with values of both signs at the ends changes its sign once |
| C187 V | the tests of the analysis with three observations | residuals span one direction; scale and sign invariance of all tests; six observations: residuals supported on one half |
| C188 | kriging and chaos formulas on a permuted design | the bordered matrix is permuted; inverse and products commute with the permutation |
| C189 V | hmRun with one batch, counts of the four outcomes on the design | corrected minus predicted share is (fp - fn)/(n (p11 - p10)), observed minus predicted share is (fn - fp)/n |
| C190 V | gaussPodOf with a new independent error | fitted value, residual norm and new error: Student pivot; Phi(t sqrt u) below its tangent gives the strict inequality |
| C191 V | binomialPodOf (empirical survival of the residuals) over Gaussian errors | residual exceeds iff the signal carried along the fitted line exceeds; that is a linear combination of the errors, variance 1 + difference of leverages; Finset induction for its law |
| C192 V | heap of samples and distributions, references held by the caller and by the POD objects, one step per API call (Model/Aliasing) | invariant over histories: data references are fresh, apart from each other and from the caller's objects |
| C193 V | same heap model; getInputDOE returns the address, getOutputDOE allocates only with Box-Cox | an address used by no adaptive signal POD keeps its sample, induction over histories |
| C194 V | `gaussPodOf`, `binomialPodOf` (see C190, C191) | changing the signs of the errors exchanges POD and 1 - POD (`flip_gauss`, `flip_binomial`); the law is invariant |
| C195 V | the run functions of C100, C144, C65, C42 as state transformers, folded over histories | case analysis: every attribute read is written before in the same run; counterexamples: cached default distribution, sizes dropped by a Sobol run, exception after the first assignments |
| C196 V | `qrPodRun`, `quantLoss` of C144 | near the fitted line the two losses differ by a constant along every direction (`loss_near`), convexity makes the local minimum global |
| C197 V | `gaussPodOf`, `binomialPodOf` | change of unit (C94) turns a large signal into a small perturbation of a pulse, continuity of the POD there |
| C198 V | `gaussPodOf`, `binomialPodOf`, `qrPodRun` on repeated data | sums over the repeated index set are multiples; comparison of the prediction variances |
| C199 | `krigingRunSim`, `getPODCLModel`, `sizesDetection` of C34, C35, C90 | interpolation error by uniform continuity of the exact curve, or by convexity of f + M/2 x^2; continuity of the interpolated curve; strict monotonicity localises the level |
| C200 | `linearPodRun`, `computeLinearModel`, `podRun`, `qrPodRun` of C100, C26, C14, C144 | with parameter 1 the transformed data are the data raised by a constant; equivariance of least squares, C159 for the censored fit, C145 for the regression |
| C201 V | result arrays numbered, a run writes in the last one, accepted sizes append one; held results are numbers or views | no call shortens or rewrites the list of earlier arrays; runs leave it alone, so the view reads the current array |
| C202 V | gaussPodOf, binomialPodOf, gaussDetectionOf | continuity of the fit; compactness of the range (as a fraction of it, the range moves with the data); one more residual above the margin |
| C203 V | effectiveLevel (standard library), initializing | induction over the chain of loggers |
| C204 V | moduleExports, packageNames, packageAll | membership in the concatenated lists, for every name |
| C205 | gaussClOf, gaussColl, podClFromCollection | the simulated value is Phi of r g + kappa chi, a law with continuous strictly increasing distribution function; strong law of large numbers for rational thresholds; probability integral transform of the pivot |
| C206 | reducedLogLik (`_math_tools.py` 12-48) | least squares minimise the residual sum for every deviation (C27_ols_optimal); log t <= t - 1 gives the best deviation; the constant collects N/2 (log(2 pi) + 1) and the divisor N-2 |
| C207 V | drawBoxCoxLikelihood, linearBoxCoxRun over podRun, analysisBoxCox, qrRun | case analysis of the runs; induction over the bootstrap samples |
| C208 V | podGaussF, gaussCurveF, gaussClOfF: the curves over F with the quotient of numpy | least squares find an exact line; quotient by zero is an infinity with the sign of the margin, or NaN |
| C209 V | bootstrapColl, podClFromCollection with the resamples of a sequence of uniform index maps | shares of all sets of resamples converge a.s. (share_tendsto), count argument on quantile |
| C210 V | analysisFull (Model/AnalysisFull) | injectivity of Box-Cox on the kept signals, variance zero iff constant, order of the stages |
| C211 V | linearPodRun with the draws of numpy (starts) separated from those of OpenTURNS | finite likelihood at a positive scale; unbounded likelihood on a line |
| C212 V | tables of Analysis and SummaryText with round(x, 2) as nearest multiple of 1/100 | distance to the nearest multiple; strict monotony of the curve |
| C213 V | qrPodRun and qrGetPODCL (columns of the sample of sizes) | uniform shares of the resamples (C209); zero pinball loss |
| C214 V | Model/Settings: log flags and interactive mode as a global state, effect of getResults, censored fit and the adaptive runs | case analysis per call, induction over the list of calls |
| C215 V | no new model: hitMissRunSim, chaosRunSim, krigingRunSim with the draws as parameters | interp1d_spec keeps order; a box of draws with positive product measure gives the decreasing curve |
| C216 V | Model/SavedGraphs: the directory as a state (exists, files by name), loops of the adaptive runs with the save step | induction over the loop; file names are injective in the iteration number |
| C217 | no new model: fittedChaos, chaosDraw, chaosRunSim, chaosQ2 | least squares recovers the coefficients of noiseless data; the scale is then zero and the layout lemma C36 gives shares |
| C218 V | no new model: runs with the draws as parameters, noise taken from one stream | layout lemma C36 gives the block of deviates used at each size; blocks of independent deviates have one law |
| C219 V | Model/Classifier: construction of the scikit-learn classifier from the parameter lists (map over lists, first element), run with the options in force | case analysis on the lists; failed runs leave the numpy flag set |
| C220 V | Model/Classifier (hmFullRun): the case of one label in front of hmRun | unfolding; later runs raise since the input is a numpy array |
| C221 | hitMissRunSim, getPODCLModel, sizesDetection | mean and quantile are 1-Lipschitz, interpolation preserves the distance, monotone inverse of the true curve |
| C222 | chaosRunSim for the fitted setup and for the setup with the signal as only basis function | counting above shifted thresholds, order of rows, columns, quantiles and interpolations |
| C223 V | hmRun, aggregate | sign of p11 - p10 in terms of the four counts |
| C224 V | hmRun, hmLoop, confusion matrix with IEEE division | the initial classifier stays in the list, its zero column gives NaN, which propagates through mean, inverse and sum |
| C225 V | hmPodRun: training receives the number from random_state or from the numpy stream | equality of the environments; value of the curve at a requested size |
| C226 | adRun, hmRun with two numbers of points | both loops in parallel: equal iterations until the shorter one stops or truncates its batch; growth of the design |
| C227 | `fittedChaos`, `chaosRunSim`, `defaultMarginals`, `uniformTransformation` | equivariance of least squares, residuals and draws; counting above the threshold is invariant; interpolation commutes with affine maps |
| C228 | `krigingDesignRun`, `krigAmplitude`, `krigReducedLik` | blocks of the inverse of the bordered matrix for a multiple of the covariance; the likelihood is shifted by a constant; trajectories are converted, counts above the threshold are the same |
| C229 | `krigTrajectory`, `podLaw`, `mixtureLaw`, `krigingDesignRun` | a trajectory is within e + Z v of the signal; counts above shifted thresholds are ordered; far from the threshold the counts are equal, hence the laws and the run |
| C230 | `pseudoR2`, `scorePercentile`, `qrGetR2` | a constant is a horizontal line, so the best line is not worse; a loss is zero exactly for a line through all points; losses scale with the unit |
| C231 V | runs of C227/C228 followed by sizesDetection | interpolated curves are continuous; a root in one unit is a root in the other; the level is taken once |
| C232 V | hmCtorRun of C105 | the kept observations and the labels are the same comparisons; then the same initial state |
| C233 V | computeLinearModel, gaussPodOf, binomialPodOf | the likelihood of the mirrored data at the mirrored parameters is the same; uniqueness of the best fit (C158); symmetry of Phi |
| C234 V | krigingDesignRun, chaosRunSim of C227/C228 | normalisation by column commutes with the permutation; least squares with permuted columns gives permuted coefficients |
| C235 V | Model/AdaptivePod: complete runs of both kriging classes | both fits end with the same regression; induction over the loop gives the last update; minima and maxima of an enlarged sample |
| C236 V | Model/ChaosRun | strong law for the number of signals above the threshold; margin on both sides of the sample quantile |
| C237 V | Model/SobolMethods, Model/Pli | blocks of the design exchanged; products over the marginals reordered |
| C238 V | Model/ResidualVar | centred sums with one more value; rank-one update of the leverage |
| C239 V | Model/Metamodel (podSamplePerDefect), Model/Sim | strong law over the trajectories for rational bounds; Chebyshev for the final draws; existence by dominated convergence |
| C240 V | Model/GaussCl (gaussClOf, gaussDetectionOf) | the draws concentrate (Chebyshev for the coefficients and for chi-squared divided by n-2); a quantile lies between the curves; monotone curves enclose the root |
| C241 V | Model/QrRun, Model/QrConfidence | induction over the solvable resamples; rows of zeros; quantile of a sample with many zeros |
| C242 V | Model/Chaos (chaosRunSim, chaosDraw) | law of large numbers for the Gram matrix, so the covariance of the coefficients tends to 0; Chebyshev; the exceedance probability is continuous in the parameters; a quantile lies between the curves |
| C243 V | Model/ChaosFit, Model/ChaosRun | the residual sum of squares is below its mean with probability near 1/2 (central limit theorem); then the fitted deviation is too small and, for a low threshold, each simulated POD exceeds the truth; continuity of the measure gives one threshold |
| C244 | chaosRunSim, getPODCLModel, computeDetectionSize | probability of close coefficients (C242), limits of both curves at the nodes (C150), chords close to a continuous curve, inverse of a strictly increasing curve |
| C245 | Model/QrRun, Model/PseudoR2 | the prepared data are a permutation (filter, map, minimum); the loss is a sum; a unique minimiser of equal losses is the same line; induction over the resamples |
| C246 | krigingDesignRun, getPODCLModel, computeDetectionSize | C180 at the finitely many sizes, chords close to a continuous curve, inverse of a strictly increasing curve |
| C247 V | Model/HitMiss run, getPODCLModel | law of large numbers for the share of parameters below a value; quantile of order 1-c of the drawn probabilities; factor c from C151 |
| C248 | Model/Pli constructors, meanPert, varPert, pliEntry | mirrored laws; substitution x -> -x in the integrals; uniqueness of the root and, by strict Cauchy-Schwarz, of the minimum over the box |
| C249 V | Model/Sobol sobolRun, krigExec, chaosExecSample; Model/SobolDesign; Model/SobolMethods | the design commutes with the conversion of its rows; C227 for the simulated coefficients; normalise_units for the kriging result; strict decrease of the normal density for the witness |
| C250 | Model/Sobol sobolRun, krigExec, chaosExecSample; Model/SobolMethods | every estimate is a function of products of differences of outputs; no tie splits the simulations into detected and missed; symmetry of Phi |
| C251 | Model/KrigSim krigingDesignRun, Model/ChaosRun chaosRunSim, Model/Metamodel getPODCLModel, podLaw | krigMean and lsCoefs are odd in the signals; counts without ties; symmetry of the ranks; interpolation is affine in the values |
| C252 V | Model/QrRun qrPodRun, Model/QuantileReg qrCurve, brentLine | quantile loss at 1 - tau of the opposite residuals; the same solved sizes in reverse order; the sorted points are complementary except the two ends |
| C253 V | Model/QrRun qrPodRun, Model/QuantileReg qrCurve, qrCurveCl | interpGo_right: points moved to the right with growing ordinates, induction with two first abscissae; witness with crossing lines for an interval of thresholds |
| C254 V | Model/HitMiss hmRun, selectBatch, meanConf, aggregate; swapEnv conjugates the study | entries of the exchanged confusion matrix: 1 - p10 and 1 - p11; argsort is unique for distinct values; ranks of the batch and their mirror image |
| C255 | Model/NormalFit analysisTests | the fitted line takes up the trend, so the residuals are multiplied by c; pvalues_multiple; the variance of the signals splits into residuals and line, solved for the slope |
| C256 V | Model/Pli pliEntry with the operators greater and less | sums over both sides make up the sum of all ratios; ratio of two normal densities above one beyond the midpoint; C119 applied to the output and to its opposite |
| C257 | Model/Stats computeR2, olsResiduals | the variance of the signals splits into residuals and line (svar_split), the rest is algebra |
| C258 V | Model/Tests harrisonMcCabePValue | the statistic is A/(A+B) for the sums of squares of the halves; cross multiplication; finitely many simulated samples |
| C259 V | Model/NormalFit analysisTests at x.rev, y.rev | sums over a permutation; dwB of the reversed defects is the reversed dwB; three residuals supported in the first half |
| C260 | Model/Pli pliEntry | the failure sample of the larger threshold is a part of the other one, and the density ratios are not negative |
