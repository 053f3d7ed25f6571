{
 "claims": [
  {
   "property": "C01",
   "status": "proved",
   "theorems": [
    "Verif.Props.C01_run_uses_filter",
    "Verif.Props.C01_filter_classifies",
    "Verif.Props.C01_filter_partition"
   ],
   "note": "Full classification and partition for all samples, thresholds not NaN."
  },
  {
   "property": "C02",
   "status": "proved",
   "theorems": [
    "Verif.Props.C02_filter_aligned"
   ],
   "note": "For all thresholds, missing ones included, and NaN signals."
  },
  {
   "property": "C03",
   "status": "partial",
   "theorems": [
    "Verif.Props.C03_none_means_no_censoring_partial",
    "Verif.Props.C03_violated"
   ],
   "note": "Violated by the code for signals equal to the extreme floats or infinite (C03_violated); proved for all signals strictly inside the float range."
  },
  {
   "property": "C04",
   "status": "partial",
   "theorems": [
    "Verif.Props.C04_group_counts_partial",
    "Verif.Props.C04_violated"
   ],
   "note": "Violated by the code for NaN signals and for saturation <= noise (C04_violated); exact count for all inputs proved."
  },
  {
   "property": "C05",
   "status": "partial",
   "theorems": [
    "Verif.Props.C05_start_search_partial",
    "Verif.Props.C05_start_search_iff_partial",
    "Verif.Props.C05_violated"
   ],
   "note": "Violated by the code when only the 100th draw works (C05_violated); complete description of the search proved."
  },
  {
   "property": "C06",
   "status": "proved",
   "theorems": [
    "Verif.Props.C06_MLE_is_neg_log_likelihood",
    "Verif.Props.C06_MLE_nonpos_scale",
    "Verif.Props.C06_MLE_never_nan_and_positive_scale_wins",
    "Verif.Props.C06_MLE_none"
   ],
   "note": "Identity with Mathlib's Gaussian density and measure; +inf for non-positive scale; never NaN."
  },
  {
   "property": "C07",
   "status": "proved",
   "theorems": [
    "Verif.Props.C07_R2_le_one",
    "Verif.Props.C07_R2_ols"
   ],
   "note": "For all samples of size at least 2."
  },
  {
   "property": "C08",
   "status": "partial",
   "theorems": [
    "Verif.Props.C08_violated",
    "Verif.Props.C08_zero_mean_partial"
   ],
   "note": "Violated: p-value is 1 for every uncensored fit (C08_violated). Proved: for other residuals the p-value is 1 iff the mean is zero."
  },
  {
   "property": "C09",
   "status": "proved",
   "theorems": [
    "Verif.Props.C09_harrisonMcCabe_range",
    "Verif.Props.C09_harrisonMcCabe_reverse",
    "Verif.Props.C09_breakPoint",
    "Verif.Props.C09_harrisonMcCabe_pvalue",
    "Verif.Props.C09_durbinWatson_range",
    "Verif.Props.C09_breuschPagan_range"
   ],
   "note": "Ranges of the three statistics and of the simulated p-value."
  },
  {
   "property": "C10",
   "status": "partial",
   "theorems": [
    "Verif.Props.C10_violated",
    "Verif.Props.C10_two_sided_partial"
   ],
   "note": "Violated: one-sided values even in the deviation (C10_violated). Two-sided value and the region dw<=mean proved."
  },
  {
   "property": "C11",
   "status": "proved",
   "theorems": [
    "Verif.Props.C11_band_matrix",
    "Verif.Props.C11_traces",
    "Verif.Props.C11_moments",
    "Verif.Props.C11_projector"
   ],
   "note": "Trace identities for every n>=2 and every sample; projector genuine for non-constant defects."
  },
  {
   "property": "C12",
   "status": "proved",
   "theorems": [
    "Verif.Props.C12_analysis",
    "Verif.Props.C12_constructor"
   ],
   "note": "All six classes and all shapes."
  },
  {
   "property": "C13",
   "status": "partial",
   "theorems": [
    "Verif.Props.C13_violated",
    "Verif.Props.C13_violated_witness",
    "Verif.Props.C13_analysis_honours_partial"
   ],
   "note": "Violated by the POD classes: the given parameter never has any effect (C13_violated). Proved for the analysis class."
  },
  {
   "property": "C14",
   "status": "proved",
   "theorems": [
    "Verif.Props.C14_boxcox_preserves_decisions",
    "Verif.Props.C14_run_preserves_decisions"
   ],
   "note": "Every exponent; also at the level of the whole preprocessing step."
  },
  {
   "property": "C15",
   "status": "partial",
   "theorems": [
    "Verif.Props.C15_shift_positive_partial",
    "Verif.Props.C15_violated"
   ],
   "note": "Violated for a zero minimum and for thresholds below the shift (C15_violated). Exact conditions proved."
  },
  {
   "property": "C16",
   "status": "proved",
   "theorems": [
    "Verif.Props.C16_detection_size"
   ],
   "note": "Root finder under its contract (solution in the interval); contract shown satisfiable by the intermediate value theorem."
  },
  {
   "property": "C17",
   "status": "partial",
   "theorems": [
    "Verif.Props.C17_label_exact_partial",
    "Verif.Props.C17_violated"
   ],
   "note": "Violated on doubles for 29, 57, 58 percent (C17_violated, exhaustive over integer percentages). Exact on real numbers."
  },
  {
   "property": "C18",
   "status": "proved",
   "theorems": [
    "Verif.Props.C18_confidence_size_ge"
   ],
   "note": "Under a strictly increasing POD curve and a confidence curve below it."
  },
  {
   "property": "C19",
   "status": "proved",
   "theorems": [
    "Verif.Props.C19_binomial_pod"
   ],
   "note": "Counting identity, range and monotonicity for all samples and lines."
  },
  {
   "property": "C20",
   "status": "partial",
   "theorems": [
    "Verif.Props.C20_confidence_value_partial",
    "Verif.Props.C20_violated"
   ],
   "note": "Violated: the curve is the Clopper-Pearson bound for one detection more than observed (strictly too high), and conf^(1/N) with all detected (C20_violated). What is computed is characterised exactly; the Beta quantile contract is the integral definition, related to the binomial law by proof."
  },
  {
   "property": "C21",
   "status": "partial",
   "theorems": [
    "Verif.Props.C21_confidence_curve_partial",
    "Verif.Props.C21_violated"
   ],
   "note": "Violated for 0 and for N detections (C21_violated). Monotonicity elsewhere and an exact criterion for CL<=POD proved."
  },
  {
   "property": "C22",
   "status": "proved",
   "theorems": [
    "Verif.Props.C22_gauss_pod"
   ],
   "note": "Matrix formula reduced to 1/n+(a-mean)^2/Sxx; identity with Mathlib's Gaussian measure."
  },
  {
   "property": "C23",
   "status": "partial",
   "theorems": [
    "Verif.Props.C23_gauss_monotone_partial",
    "Verif.Props.C23_violated"
   ],
   "note": "Violated whenever the threshold is not crossed at the mean defect (C23_violated). Exact monotonicity half-line proved."
  },
  {
   "property": "C24",
   "status": "proved",
   "theorems": [
    "Verif.Props.C24_shares",
    "Verif.Props.C24_metamodel_shares",
    "Verif.Props.C24_confidence_quantile",
    "Verif.Props.C24_gauss_curves_in_unit"
   ],
   "note": "OpenTURNS quantile formula restated; any collection of curves."
  },
  {
   "property": "C25",
   "status": "partial",
   "theorems": [
    "Verif.Props.C25_simulation_size_partial",
    "Verif.Props.C25_violated"
   ],
   "note": "Violated: a smaller size silently drops curves (C25_violated). Exact behaviour proved for all histories."
  },
  {
   "property": "C26",
   "status": "proved",
   "theorems": [
    "Verif.Props.C26_analysis_constructor"
   ],
   "note": "All combinations of arguments."
  },
  {
   "property": "C27",
   "status": "proved",
   "theorems": [
    "Verif.Props.C27_ols_optimal"
   ],
   "note": "Optimality and uniqueness over all lines."
  },
  {
   "property": "C28",
   "status": "proved",
   "theorems": [
    "Verif.Props.C28_setQuantile",
    "Verif.Props.C28_history",
    "Verif.Props.C28_defaults"
   ],
   "note": "One call, and every history of calls from a new object (induction); the default levels (C28_defaults)."
  },
  {
   "property": "C29",
   "status": "proved",
   "theorems": [
    "Verif.Props.C29_qr_curve"
   ],
   "note": "Exact domain, interpolation, range, end points and monotonicity for strictly increasing solved defects."
  },
  {
   "property": "C30",
   "status": "partial",
   "theorems": [
    "Verif.Props.C30_lambda_after_run_partial",
    "Verif.Props.C30_violated"
   ],
   "note": "Violated: the reported parameter is that of the last bootstrap sample (C30_violated). What is reported is characterised for all runs."
  },
  {
   "property": "C31",
   "status": "partial",
   "theorems": [
    "Verif.Props.C31_violated_data",
    "Verif.Props.C31_getR2_level_partial",
    "Verif.Props.C31_violated"
   ],
   "note": "Violated at every level except 1/2 (C31_violated); C31_violated_data: a data set on which the two values differ for every level above 3/4, with the statsmodels formula."
  },
  {
   "property": "C32",
   "status": "proved",
   "theorems": [
    "Verif.Props.C32_setDefectSizes",
    "Verif.Props.C32_defaults"
   ],
   "note": "Permutation, strict order of the result and exact acceptance condition, for all lists; the default sizes (C32_defaults)."
  },
  {
   "property": "C33",
   "status": "partial",
   "theorems": [
    "Verif.Props.C33_rejected_sizes_partial",
    "Verif.Props.C33_violated",
    "Verif.Props.C33_violated_run"
   ],
   "note": "Violated: the sizes are stored before the range check (C33_violated, C33_violated_run). Attributes after a rejection characterised."
  },
  {
   "property": "C34",
   "status": "proved",
   "theorems": [
    "Verif.Props.C34_pod_curve"
   ],
   "note": "Every strictly increasing set of sizes: interpolation, domain, range."
  },
  {
   "property": "C35",
   "status": "partial",
   "theorems": [
    "Verif.Props.C35_confidence_curve_partial",
    "Verif.Props.C35_violated"
   ],
   "note": "Violated when the sizes or sampling size are changed after run (C35_violated). Proved when the settings are those of the run."
  },
  {
   "property": "C36",
   "status": "proved",
   "theorems": [
    "Verif.Props.C36_chaos_layout",
    "Verif.Props.C36_hitmiss_layout"
   ],
   "note": "Index arithmetic of reshape order F for every number of simulations and samples."
  },
  {
   "property": "C37",
   "status": "partial",
   "theorems": [
    "Verif.Props.C37_estimator_law_partial",
    "Verif.Props.C37_mixture_mean_partial",
    "Verif.Props.C37_violated"
   ],
   "note": "Violated: the Normal branch puts mass outside [0,1] (C37_violated). Branch selection and means proved for all estimates."
  },
  {
   "property": "C38",
   "status": "proved",
   "theorems": [
    "Verif.Props.C38_loo_exact",
    "Verif.Props.C38_loo_best"
   ],
   "note": "Every invertible covariance and full-rank trend; equality with the kriging predictor built without the point, and its optimality."
  },
  {
   "property": "C39",
   "status": "partial",
   "theorems": [
    "Verif.Props.C39_q2_partial",
    "Verif.Props.C39_violated"
   ],
   "note": "Violated: the chaos value divides by the unbiased variance and is strictly larger on the same errors (C39_violated). Upper bound, equality case and the kriging formula proved."
  },
  {
   "property": "C40",
   "status": "proved",
   "theorems": [
    "Verif.Props.C40_chaos_loo"
   ],
   "note": "Every design with invertible normal matrix and leverage below one; leave-one-out fit defined by minimisation."
  },
  {
   "property": "C41",
   "status": "proved",
   "theorems": [
    "Verif.Props.C41_normalisation"
   ],
   "note": "Mean zero for all columns, variance one for every column above the 1e-12 cut, injective."
  },
  {
   "property": "C42",
   "status": "partial",
   "theorems": [
    "Verif.Props.C42_violated",
    "Verif.Props.C42_violated_chaos",
    "Verif.Props.C42_user_chaos_partial"
   ],
   "note": "Violated: kriging always raises UnboundLocalError (C42_violated), chaos raises AttributeError without a distribution (C42_violated_chaos). Chaos with a distribution proved."
  },
  {
   "property": "C43",
   "status": "partial",
   "theorems": [
    "Verif.Props.C43_first_run_partial",
    "Verif.Props.C43_violated",
    "Verif.Props.C43_violated_witness",
    "Verif.Props.C43_violated_kriging",
    "Verif.Props.C43_settings_partial"
   ],
   "note": "Violated: strategy and default distribution are frozen by the first run, for every later history (C43_violated). The first run uses the last settings given, for all setter histories (C43_settings_partial)."
  },
  {
   "property": "C44",
   "status": "proved",
   "theorems": [
    "Verif.Props.C44_draw_bounds"
   ],
   "note": "All combinations of optional bounds."
  },
  {
   "property": "C45",
   "status": "proved",
   "theorems": [
    "Verif.Props.C45_adaptive_run"
   ],
   "note": "Every candidate design and criterion with values below the code's initial bound 1e9; the k-th point is the first minimiser among the remaining candidates for the enlarged design."
  },
  {
   "property": "C46",
   "status": "partial",
   "theorems": [
    "Verif.Props.C46_aligned_partial",
    "Verif.Props.C46_violated",
    "Verif.Props.C46_violated_run"
   ],
   "note": "Violated: an exception of the physical model leaves one input too many (C46_violated, C46_violated_run). All executions classified; successful runs aligned."
  },
  {
   "property": "C47",
   "status": "partial",
   "theorems": [
    "Verif.Props.C47_violated",
    "Verif.Props.C47_violated_witness",
    "Verif.Props.C47_first_iteration_partial"
   ],
   "note": "Violated: no run ever uses the prediction of an updated model (C47_violated; concrete wrong choice in C47_violated_witness). First iteration proved."
  },
  {
   "property": "C48",
   "status": "partial",
   "theorems": [
    "Verif.Props.C48_selection_partial",
    "Verif.Props.C48_violated",
    "Verif.Props.C48_violated_run"
   ],
   "note": "Violated: with no eligible candidate the previous index is reused (C48_violated, C48_violated_run). Selection proved whenever a candidate is below the bound."
  },
  {
   "property": "C49",
   "status": "proved",
   "theorems": [
    "Verif.Props.C49_output_round_trip"
   ],
   "note": "Constructor data and every successful run, for all exponents."
  },
  {
   "property": "C50",
   "status": "proved",
   "theorems": [
    "Verif.Props.C50_points_added",
    "Verif.Props.C50_terminates"
   ],
   "note": "Any classifier behaviour; numpy's argsort by its contract (an implementation is proved to meet it). The iteration bound of the model is proved never to matter."
  },
  {
   "property": "C51",
   "status": "proved",
   "theorems": [
    "Verif.Props.C51_batch"
   ],
   "note": "All probability vectors (with NaN) and windows."
  },
  {
   "property": "C52",
   "status": "partial",
   "theorems": [
    "Verif.Props.C52_violated",
    "Verif.Props.C52_violated_unusable",
    "Verif.Props.C52_window_partial"
   ],
   "note": "Violated: the enlarged window is empty, IndexError for every such vector, and the object cannot be run again (C52_violated, C52_violated_unusable)."
  },
  {
   "property": "C53",
   "status": "partial",
   "theorems": [
    "Verif.Props.C53_distinct_partial",
    "Verif.Props.C53_violated"
   ],
   "note": "Violated for one to four eligible candidates (C53_violated). Exact criterion proved: distinct iff at least five."
  },
  {
   "property": "C54",
   "status": "proved",
   "theorems": [
    "Verif.Props.C54_aggregated",
    "Verif.Props.C54_degenerate"
   ],
   "note": "All real entries that differ; the excluded case is characterised too (C54_degenerate)."
  },
  {
   "property": "C55",
   "status": "partial",
   "theorems": [
    "Verif.Props.C55_run_partial",
    "Verif.Props.C55_confusion_partial",
    "Verif.Props.C55_columns",
    "Verif.Props.C55_violated"
   ],
   "note": "Violated from the third iteration on because the closures share their variables (C55_violated, a complete run). Exact matrix proved for all iterations, column sums too; C55_run_partial: for whole runs, in terms of the run without the last batch."
  },
  {
   "property": "C56",
   "status": "partial",
   "theorems": [
    "Verif.Props.C56_setters_partial",
    "Verif.Props.C56_violated"
   ],
   "note": "Violated: pmin above pmax, NaN and malformed parameters are accepted (C56_violated). Atomicity and the other invariants proved over all histories."
  },
  {
   "property": "C57",
   "status": "proved",
   "theorems": [
    "Verif.Props.C57_sign",
    "Verif.Props.C57_strict_mono",
    "Verif.Props.C57_antisymm",
    "Verif.Props.C57_degenerate"
   ],
   "note": "Sign, strict monotonicity and antisymmetry for all positive pairs; the null cases are characterised too (C57_degenerate)."
  },
  {
   "property": "C58",
   "status": "partial",
   "theorems": [
    "Verif.Props.C58_no_perturbation_partial",
    "Verif.Props.C58_violated"
   ],
   "note": "Violated with an 'or equal' operator and an output equal to the threshold: the unperturbed index is negative (C58_violated). Proved otherwise, for both perturbations and any solver."
  },
  {
   "property": "C59",
   "status": "partial",
   "theorems": [
    "Verif.Props.C59_failure_sample_partial",
    "Verif.Props.C59_violated"
   ],
   "note": "Violated for LessOrEqual/GreaterOrEqual as soon as an output equals the threshold (C59_violated). Exact for the strict operators and without ties."
  },
  {
   "property": "C60",
   "status": "proved",
   "theorems": [
    "Verif.Props.C60_variance_nonneg",
    "Verif.Props.C60_is_covariance",
    "Verif.Props.C60_gradient"
   ],
   "note": "Positive semi-definiteness, existence and positivity of the standard deviation; the matrix is the empirical covariance (C60_is_covariance) and the vector the gradient of the index (C60_gradient)."
  },
  {
   "property": "C61",
   "status": "proved",
   "theorems": [
    "Verif.Props.C61_uniform",
    "Verif.Props.C61_admissible",
    "Verif.Props.C61_normal"
   ],
   "note": "fsolve enters only as returning a root; existence and uniqueness of the root exactly for means inside the interval (C61_admissible)."
  },
  {
   "property": "C62",
   "status": "proved",
   "theorems": [
    "Verif.Props.C62_derivatives",
    "Verif.Props.C62_hessian_psd",
    "Verif.Props.C62_uniform",
    "Verif.Props.C62_stationary_min",
    "Verif.Props.C62_normal"
   ],
   "note": "Gauss-Kronrod quadrature taken as exact, the optimiser only as returning a local minimum; gradient and Hessian formulas proved to be the derivatives (C62_derivatives)."
  },
  {
   "property": "C63",
   "status": "partial",
   "theorems": [
    "Verif.Props.C63_violated_deltas",
    "Verif.Props.C63_broadcast",
    "Verif.Props.C63_matrix",
    "Verif.Props.C63_rejects",
    "Verif.Props.C63_mean",
    "Verif.Props.C63_variance",
    "Verif.Props.C63_cov_increase_partial",
    "Verif.Props.C63_violated"
   ],
   "note": "Violated: the wrapper's documented scaling (variance x delta) is not the one computed for all deltas but at most two (C63_violated_deltas), deltas below -std/mean are reflected and a null variance is accepted (C63_violated). Shapes, rejections and formulas proved."
  },
  {
   "property": "C64",
   "status": "proved",
   "theorems": [
    "Verif.Props.C64_identity",
    "Verif.Props.C64_zero_iff",
    "Verif.Props.C64_sign"
   ],
   "note": "Any densities of mass at most one on the range; zero exactly for equal densities."
  },
  {
   "property": "C65",
   "status": "partial",
   "theorems": [
    "Verif.Props.C65_after_run_partial",
    "Verif.Props.C65_run_returns",
    "Verif.Props.C65_before_run",
    "Verif.Props.C65_histories",
    "Verif.Props.C65_violated",
    "Verif.Props.C65_violated_rejected",
    "Verif.Props.C65_violated_shorter"
   ],
   "note": "Violated: the kept list is stale after setDefectSizes and placeholders are returned (C65_violated); a rejected change breaks the next run (C65_violated_rejected), or, with fewer sizes, leaves old objects and indices in place or fails in the warning (C65_violated_shorter). Proved after every run on consistent attributes, and consistency over histories of accepted calls."
  },
  {
   "property": "C66",
   "status": "proved",
   "theorems": [
    "Verif.Props.C66_slices",
    "Verif.Props.C66_shape",
    "Verif.Props.C66_full",
    "Verif.Props.C66_signed",
    "Verif.Props.C66_out_of_bounds"
   ],
   "note": "All eight branches, all indices including negative and out of range ones."
  },
  {
   "property": "C67",
   "status": "proved",
   "theorems": [
    "Verif.Props.C67_selection",
    "Verif.Props.C67_histories"
   ],
   "note": "Selection, alignment, failure when nothing varies; the hypothesis on the sizes is an invariant of all histories whose setDefectSizes arguments are in range (after a rejected argument the stored sizes are wrong: C33)."
  },
  {
   "property": "C68",
   "status": "partial",
   "theorems": [
    "Verif.Props.C68_value_partial",
    "Verif.Props.C68_pod_partial",
    "Verif.Props.C68_violated",
    "Verif.Props.C68_violated_variance",
    "Verif.Props.C68_violated_tolerance"
   ],
   "note": "Violated three ways (no normalisation; variance of the first size for all sizes; tolerance test of the wrong sign, so negative variances always raise or give NaN). Exact value and the case in which it is the POD are proved."
  },
  {
   "property": "C69",
   "status": "partial",
   "theorems": [
    "Verif.Props.C69_rows_partial",
    "Verif.Props.C69_noise_law",
    "Verif.Props.C69_violated",
    "Verif.Props.C69_violated_witness"
   ],
   "note": "Layout of the vectorised evaluation and law of the noise proved. Violated for the point evaluation, which uses the sizes of the POD object."
  },
  {
   "property": "C70",
   "status": "proved",
   "theorems": [
    "Verif.Props.C70_getter",
    "Verif.Props.C70_completed",
    "Verif.Props.C70_setActive"
   ],
   "note": "All histories, including runs interrupted by an exception at any point; which object is returned is determined too."
  },
  {
   "property": "C71",
   "status": "partial",
   "theorems": [
    "Verif.Props.C71_built_iff_partial",
    "Verif.Props.C71_rows_partial",
    "Verif.Props.C71_after_run_partial",
    "Verif.Props.C71_violated",
    "Verif.Props.C71_violated_witness",
    "Verif.Props.C71_validation_partial",
    "Verif.Props.C71_violated_attribute"
   ],
   "note": "Violated: a quantile regression, chaos or kriging activated after the run makes the table raise (C71_violated, all states; C71_violated_witness, a history; C71_violated_attribute, the exception). Rows proved whenever the table is built; built exactly when the validation results it reads are available (C71_built_iff_partial), in particular after every completed run."
  },
  {
   "property": "C72",
   "status": "partial",
   "theorems": [
    "Verif.Props.C72_drawn_iff_partial",
    "Verif.Props.C72_figures_partial",
    "Verif.Props.C72_graphs_partial",
    "Verif.Props.C72_default_violated",
    "Verif.Props.C72_float_violated",
    "Verif.Props.C72_after_run_partial"
   ],
   "note": "Violated for the default arguments while the quantile regression is active (the default) and for every nonzero float boxCox. Exact condition, and the POD graphs drawn, are proved."
  },
  {
   "property": "C73",
   "status": "proved",
   "theorems": [
    "Verif.Props.C73_regression",
    "Verif.Props.C73_confidence",
    "Verif.Props.C73_residuals",
    "Verif.Props.C73_order"
   ],
   "note": "Full content of both tables in both censoring states."
  },
  {
   "property": "C74",
   "status": "proved",
   "theorems": [
    "Verif.Props.C74_accessors",
    "Verif.Props.C74_residuals",
    "Verif.Props.C74_graphs"
   ],
   "note": "All accessors; the residual columns under equal lengths, which the analysis guarantees (C05)."
  },
  {
   "property": "C75",
   "status": "partial",
   "theorems": [
    "Verif.Props.C75_exact_partial",
    "Verif.Props.C75_warnings_partial",
    "Verif.Props.C75_violated",
    "Verif.Props.C75_violated_witness"
   ],
   "note": "Violated: R2 is among the tested values (C75_violated for every analysis with a low R2). Exact condition proved; the claim holds when R2 >= 0.05."
  },
  {
   "property": "C76",
   "status": "proved",
   "theorems": [
    "Verif.Props.C76_text",
    "Verif.Props.C76_last",
    "Verif.Props.C76_steps",
    "Verif.Props.C76_count",
    "Verif.Props.C76_no_iteration"
   ],
   "note": "Text, monotone percentage, final line and number of updates, for all nIter, nFlush and barLength."
  },
  {
   "property": "C77",
   "status": "partial",
   "theorems": [
    "Verif.Props.C77_limits_contain_partial",
    "Verif.Props.C77_violated"
   ],
   "note": "Violated for every data set with a negative value (C77_violated). Proved for non-negative values."
  },
  {
   "property": "C78",
   "status": "partial",
   "theorems": [
    "Verif.Props.C78_instance",
    "Verif.Props.C78_class_exists_partial",
    "Verif.Props.C78_single_inheritance_partial",
    "Verif.Props.C78_violated"
   ],
   "note": "Proved for instance access (all hierarchies) and for class access under single inheritance. Violated for class access under multiple inheritance (C78_violated: a diamond)."
  },
  {
   "property": "C79",
   "status": "proved",
   "theorems": [
    "Verif.Props.C79_setVerbose",
    "Verif.Props.C79_setGraphActive",
    "Verif.Props.C79_setSensitivityMethod",
    "Verif.Props.C79_setDistribution"
   ],
   "note": "All argument types of the four setters."
  },
  {
   "property": "C80",
   "status": "partial",
   "theorems": [
    "Verif.Props.C80_sobol",
    "Verif.Props.C80_pli_partial",
    "Verif.Props.C80_after_run_partial",
    "Verif.Props.C80_violated"
   ],
   "note": "Violated: AdaptiveSignalPOD never stores the normalisation, so the PLI constructors reject it. Exact acceptance conditions proved."
  },
  {
   "property": "C81",
   "status": "partial",
   "theorems": [
    "Verif.Props.C81_three_observations_partial",
    "Verif.Props.C81_violated",
    "Verif.Props.C81_violated_filter"
   ],
   "note": "Violated by filtering after the check (C81_violated; for every class and all data C81_violated_filter). Proved without thresholds."
  },
  {
   "property": "C82",
   "status": "partial",
   "theorems": [
    "Verif.Props.C82_violated_levels",
    "Verif.Props.C82_setQuantile_after_run_partial",
    "Verif.Props.C82_violated"
   ],
   "note": "Violated: with as many levels as before the old defects get the new levels (C82_violated; for all defects and levels C82_violated_levels). Exact behaviour proved."
  },
  {
   "property": "C83",
   "status": "proved",
   "theorems": [
    "Verif.Props.C83_qr_detection_size"
   ],
   "note": "Solver modelled by its contract on lines."
  },
  {
   "property": "C84",
   "status": "partial",
   "theorems": [
    "Verif.Props.C84_trajectory_partial",
    "Verif.Props.C84_violated"
   ],
   "note": "Violated: one deviate per trajectory (C84_violated). Marginal law proved."
  },
  {
   "property": "C85",
   "status": "partial",
   "theorems": [
    "Verif.Props.C85_violated_run",
    "Verif.Props.C85_qr_monotone_partial",
    "Verif.Props.C85_violated"
   ],
   "note": "Violated when regression lines cross, and for negative simulated defects (C85_violated; C85_violated_run on observations with exact lines). Proved for ordered solved defects, for both curves."
  },
  {
   "property": "C86",
   "status": "partial",
   "theorems": [
    "Verif.Props.C86_plotted_after_run_partial",
    "Verif.Props.C86_violated"
   ],
   "note": "Violated: after setDefectSizes the plot pairs new sizes with the old indices. Proved right after run."
  },
  {
   "property": "C87",
   "status": "partial",
   "theorems": [
    "Verif.Props.C87_label_partial",
    "Verif.Props.C87_violated",
    "Verif.Props.C87_violated_double"
   ],
   "note": "Violated: 97.5% is shown as 97 (C87_violated, all levels between two percents), and in double precision even 0.29 is shown as 28 (C87_violated_double, any rounding to nearest). Proved for whole percents in exact arithmetic."
  },
  {
   "property": "C88",
   "status": "partial",
   "theorems": [
    "Verif.Props.C88_lines_partial",
    "Verif.Props.C88_violated"
   ],
   "note": "Violated: the third title is glued to the last residual row (C88_violated). The exact lines of the file are proved for all tables."
  },
  {
   "property": "C89",
   "status": "proved",
   "theorems": [
    "Verif.Props.C89_criterion_mean_square",
    "Verif.Props.C89_criterion_value",
    "Verif.Props.C89_criterion_outcome",
    "Verif.Props.C89_criterion_zero",
    "Verif.Props.C89_criterion_bounded",
    "Verif.Props.C89_reference_pod",
    "Verif.Props.C89_loop_hypothesis"
   ],
   "note": "The bound feeds the hypothesis of the selection theorems (C89_loop_hypothesis)."
  },
  {
   "property": "C90",
   "status": "proved",
   "theorems": [
    "Verif.Props.C90_figure",
    "Verif.Props.C90_linear_figure"
   ],
   "note": "Root finder as a contract (C16); base class, kriging/chaos/hit-miss version and linear version. Continuity is a hypothesis: the binomial POD of the linear class is a step function."
  },
  {
   "property": "C91",
   "status": "partial",
   "theorems": [
    "Verif.Props.C91_marks_inside_partial",
    "Verif.Props.C91_violated"
   ],
   "note": "Violated: with bounds given by the user the level may be reached outside of them and the line is drawn there (C91_violated, general). Proved for the default bounds."
  },
  {
   "property": "C92",
   "status": "partial",
   "theorems": [
    "Verif.Props.C92_graph_neutral_partial",
    "Verif.Props.C92_violated"
   ],
   "note": "Violated: when the level given for the graphs is not reached the run stops after the first added point (C92_violated). Proved without probability level."
  },
  {
   "property": "C93",
   "status": "partial",
   "theorems": [
    "Verif.Props.C93_pod_reproduces_analysis_partial",
    "Verif.Props.C93_violated"
   ],
   "note": "Violated: a Box-Cox parameter given to the analysis is re-optimised by the POD (C93_violated). Proved when it was optimised or absent, with and without censoring."
  },
  {
   "property": "C94",
   "status": "proved",
   "theorems": [
    "Verif.Props.C94_gauss_units",
    "Verif.Props.C94_binomial_units"
   ],
   "note": "Without Box-Cox and censoring; C156 treats Box-Cox."
  },
  {
   "property": "C95",
   "status": "partial",
   "theorems": [
    "Verif.Props.C95_linear_unbiased_partial",
    "Verif.Props.C95_violated"
   ],
   "note": "Violated for the chaos, which divides by n-p-1 although the basis already contains the constant: exact expectation s2(n-p)/(n-p-1) (C95_violated, all designs). Proved for the linear model. Basis taken as fixed."
  },
  {
   "property": "C96",
   "status": "partial",
   "theorems": [
    "Verif.Props.C96_linear_independent_partial",
    "Verif.Props.C96_violated"
   ],
   "note": "Violated for the chaos: one realisation of the residual variance is shared by all simulations (C96_violated, exact covariance). Proved for the linear model."
  },
  {
   "property": "C97",
   "status": "proved",
   "theorems": [
    "Verif.Props.C97_confidence"
   ],
   "note": "The bilateral interval of the Gaussian is a contract with a proven instance."
  },
  {
   "property": "C98",
   "status": "partial",
   "theorems": [
    "Verif.Props.C98_draw_partial",
    "Verif.Props.C98_violated",
    "Verif.Props.C98_violated_integer"
   ],
   "note": "Violated: two-dimensional deltas make every plot raise (C98_violated); with integer deltas the Hellinger abscissas are truncated to 0 (C98_violated_integer). Proved for one-dimensional deltas of floating type."
  },
  {
   "property": "C99",
   "status": "partial",
   "theorems": [
    "Verif.Props.C99_drawn_partial",
    "Verif.Props.C99_contour_partial",
    "Verif.Props.C99_violated",
    "Verif.Props.C99_violated_spacing"
   ],
   "note": "Violated: decreasing deltas are drawn upside down (C99_violated), unequally spaced sizes at wrong abscissas (C99_violated_spacing). Proved for equally spaced increasing lists."
  },
  {
   "property": "C100",
   "status": "proved",
   "theorems": [
    "Verif.Props.C100_bootstrap",
    "Verif.Props.C100_other_laws"
   ],
   "note": "Fit of the residual law as a contract with a proven instance (empirical law)."
  },
  {
   "property": "C101",
   "status": "partial",
   "theorems": [
    "Verif.Props.C101_run_iff_partial",
    "Verif.Props.C101_attributes",
    "Verif.Props.C101_violated"
   ],
   "note": "Violated: with Box-Cox and a noise threshold a resample made of one censored observation raises (C101_violated, all such data). Exact success condition proved, and what an aborted run leaves."
  },
  {
   "property": "C102",
   "status": "partial",
   "theorems": [
    "Verif.Props.C102_merged_partial",
    "Verif.Props.C102_rebuilt_iff_partial",
    "Verif.Props.C102_violated"
   ],
   "note": "Violated for kriging and for the sensitivity analyses: the copula is dropped, and for every dependent distribution some model has a wrong POD (C102_violated). Proved for the chaos; for kriging exactly when the parameters are independent."
  },
  {
   "property": "C103",
   "status": "partial",
   "theorems": [
    "Verif.Props.C103_pod_partial",
    "Verif.Props.C103_exact_metamodel_partial",
    "Verif.Props.C103_violated"
   ],
   "note": "Violated: the PLI use the mean of the metamodel only; the defect size is dropped with probability 0 or 1 although the POD is strictly between (C103_violated, all metamodels). Proved for a metamodel without uncertainty, with the exact rule for dropped sizes."
  },
  {
   "property": "C104",
   "status": "partial",
   "theorems": [
    "Verif.Props.C104_box_partial",
    "Verif.Props.C104_runs_iff_partial",
    "Verif.Props.C104_violated"
   ],
   "note": "Violated: a constant parameter makes ot.Uniform raise, although the kriging normalisation supports it (C104_violated, all such data). The laws and the exact success condition are proved."
  },
  {
   "property": "C105",
   "status": "partial",
   "theorems": [
    "Verif.Props.C105_labels_partial",
    "Verif.Props.C105_no_points_partial",
    "Verif.Props.C105_violated",
    "Verif.Props.C105_no_model"
   ],
   "note": "Violated: with a detection threshold and the default physical model None the constructor raises although no point is to be added (C105_violated, all data). The labels are proved for all completed runs."
  },
  {
   "property": "C106",
   "status": "partial",
   "theorems": [
    "Verif.Props.C106_simulation_only_partial",
    "Verif.Props.C106_violated",
    "Verif.Props.C106_violated_rerun"
   ],
   "note": "Violated: the whole history of the performance function is used (C106_violated: any earlier evaluation in the event makes the unperturbed index positive; C106_violated_rerun: the same simulation twice gives 1). Proved for a cleared history (PLI for the POD) and when earlier points are outside the event."
  },
  {
   "property": "C107",
   "status": "proved",
   "theorems": [
    "Verif.Props.C107_unbiased",
    "Verif.Props.C107_normal_uniform"
   ],
   "note": "Strictly greater events; root finder and optimiser by their contracts of C61/C62 (instances there)."
  },
  {
   "property": "C108",
   "status": "proved",
   "theorems": [
    "Verif.Props.C108_chaos",
    "Verif.Props.C108_kriging",
    "Verif.Props.C108_hitmiss"
   ],
   "note": "Pairs (parameters, deviate) independent; nothing assumed between draws; draws_exist gives an instance. The law of the inputs is a parameter (see C102 for which law each class uses)."
  },
  {
   "property": "C109",
   "status": "proved",
   "theorems": [
    "Verif.Props.C109_conservative"
   ],
   "note": "For any joint law with the conditional Gaussian marginals."
  },
  {
   "property": "C110",
   "status": "proved",
   "theorems": [
    "Verif.Props.C110_total_variance"
   ],
   "note": ""
  },
  {
   "property": "C111",
   "status": "partial",
   "theorems": [
    "Verif.Props.C111_completes_iff_partial",
    "Verif.Props.C111_violated"
   ],
   "note": "Violated: with n <= p+1 and imperfect residuals run raises after having stored a POD model, which is 0 everywhere or the fraction of positive deviates (C111_violated). Exact completion condition proved."
  },
  {
   "property": "C112",
   "status": "partial",
   "theorems": [
    "Verif.Props.C112_linear_partial",
    "Verif.Props.C112_linear_drawn_partial",
    "Verif.Props.C112_violated"
   ],
   "note": "Violated by the chaos, whose POD ignores the uncertainty of the coefficients (C112_violated, exact mean in chaos_mean_curve). Proved for the linear model with given deviation; with drawn deviations the mean is the average over the deviations (C112_linear_drawn_partial)."
  },
  {
   "property": "C113",
   "status": "proved",
   "theorems": [
    "Verif.Props.C113_covariance",
    "Verif.Props.C113_draws"
   ],
   "note": "Normal vectors characterised by their linear combinations; existence proved (normalVector_exists)."
  },
  {
   "property": "C114",
   "status": "partial",
   "theorems": [
    "Verif.Props.C114_binomial_partial",
    "Verif.Props.C114_simulated_partial",
    "Verif.Props.C114_violated",
    "Verif.Props.C114_gauss_limit_partial"
   ],
   "note": "Violated by the Gaussian POD, which is bounded by a constant < 1 depending on the data, so that detection sizes at higher levels raise on every interval (C114_violated); its limit is Phi(b1*sqrt(Sxx)/s) (C114_gauss_limit_partial). Proved for the binomial POD and for the simulated curves."
  },
  {
   "property": "C115",
   "status": "proved",
   "theorems": [
    "Verif.Props.C115_minimum",
    "Verif.Props.C115_unbounded"
   ],
   "note": "Existence under two different uncensored defects and no exact line (compactness); unboundedness in the exact-fit case. Exact reals: no underflow of the normal CDF."
  },
  {
   "property": "C116",
   "status": "partial",
   "theorems": [
    "Verif.Props.C116_coefficients_partial",
    "Verif.Props.C116_violated"
   ],
   "note": "Violated: the standard error is always smaller by the factor sqrt((n-2)/n), so the POD is larger above and smaller below the crossing size (C116_violated, all data without Box-Cox). Line, residuals and data are equal (C116_coefficients_partial). Numerical routines by an exact contract with a proven instance (exactFit_exists)."
  },
  {
   "property": "C117",
   "status": "partial",
   "theorems": [
    "Verif.Props.C117_fit_partial",
    "Verif.Props.C117_pod_partial",
    "Verif.Props.C117_violated",
    "Verif.Props.C117_violated_durbinWatson"
   ],
   "note": "Violated by the Harrison-McCabe statistic, which splits the residuals in the order of the data, for all residuals not of equal absolute value (C117_violated), and by the Durbin-Watson statistic (C117_violated_durbinWatson). Proved for the fit (with thresholds and Box-Cox) and the POD and binomial confidence curves; least squares and Box-Cox optimiser by a contract with a proven instance."
  },
  {
   "property": "C118",
   "status": "proved",
   "theorems": [
    "Verif.Props.C118_chaos",
    "Verif.Props.C118_hitmiss",
    "Verif.Props.C118_kriging"
   ],
   "note": "Draws independent in the sense of independent pairs (input, deviate); the sample space is constructed (independent_draws_exist)."
  },
  {
   "property": "C119",
   "status": "proved",
   "theorems": [
    "Verif.Props.C119_convergence"
   ],
   "note": "Greater-type events, cleared history; pairwise independent draws."
  },
  {
   "property": "C120",
   "status": "proved",
   "theorems": [
    "Verif.Props.C120_pod",
    "Verif.Props.C120_pod_uncensored",
    "Verif.Props.C120_succeeds",
    "Verif.Props.C120_analysis"
   ],
   "note": "Least squares and simplex minimiser by an exact contract with a proven instance (exactFit_exists); existence of the maximum from C115; C120_succeeds shows that runs without Box-Cox complete. Exact reals."
  },
  {
   "property": "C121",
   "status": "partial",
   "theorems": [
    "Verif.Props.C121_violated",
    "Verif.Props.C121_violated_run",
    "Verif.Props.C121_success_partial"
   ],
   "note": "Violated: the object that should be optimised again is the regression, which has no such method, so every update with Q2 < 0.95 raises AttributeError, with the point already added (C121_violated, C121_violated_run). Restricted: runs that return keep the parameters of the initial fit and end with Q2 not below 0.95. That GaussianProcessRegression has no setOptimizeParameters is an assumption on the OpenTURNS version."
  },
  {
   "property": "C122",
   "status": "partial",
   "theorems": [
    "Verif.Props.C122_accessors_partial",
    "Verif.Props.C122_violated",
    "Verif.Props.C122_second_fit"
   ],
   "note": "Violated by KrigingPOD: getCovarianceModel returns the model before the estimation (C122_violated). Proved for the adaptive class, and for basis and Q2 of both. Consequence: a second fit reproduces the first (C122_second_fit)."
  },
  {
   "property": "C123",
   "status": "proved",
   "theorems": [
    "Verif.Props.C123_search"
   ],
   "note": "Fitting routine and Sobol sequence by contracts with proven instances (toyKrig_spec, toyUnit_spec)."
  },
  {
   "property": "C124",
   "status": "partial",
   "theorems": [
    "Verif.Props.C124_inputs_partial",
    "Verif.Props.C124_violated",
    "Verif.Props.C124_signals",
    "Verif.Props.C124_amplitude"
   ],
   "note": "Violated for columns whose standard deviation is at most 1e-12, such as a parameter that is constant in the design (C124_violated). Proved for all other designs, for the signals and for the amplitude. Exact reals."
  },
  {
   "property": "C125",
   "status": "proved",
   "theorems": [
    "Verif.Props.C125_coverage"
   ],
   "note": "Greater-type events, cleared history, mutually independent draws; exact reals. Central limit theorem of Mathlib and a delta method proved here (DeltaMethod)."
  },
  {
   "property": "C126",
   "status": "proved",
   "theorems": [
    "Verif.Props.C126_consistency"
   ],
   "note": "No Box-Cox, no thresholds; least squares in closed form. Defects random; squared moments assumed."
  },
  {
   "property": "C127",
   "status": "partial",
   "theorems": [
    "Verif.Props.C127_violated",
    "Verif.Props.C127_coverage_partial"
   ],
   "note": "Violated for every true probability p with p^N below the level: the coverage is at most the level, and equal only where the binomial distribution function takes the level (C127_violated). Proved: the coverage misses the level by less than the probability of one count, and is 1 where p^N is at least a level above 1/2. Known line."
  },
  {
   "property": "C128",
   "status": "proved",
   "theorems": [
    "Verif.Props.C128_coverage",
    "Verif.Props.C128_limit"
   ],
   "note": "No Box-Cox, no thresholds; least squares in closed form. The draws have the laws the code asks for (bivariate Normal, Chi with N-2 degrees, independent); the Chi law is defined as the norm of independent standard Gaussian variables."
  },
  {
   "property": "C129",
   "status": "proved",
   "theorems": [
    "Verif.Props.C129_conservative_size"
   ],
   "note": "The event is restricted to runs where every simulated slope is positive (the confidence curve is then increasing) and the call does not raise. The root finder is taken by contract (a solution in the interval of a continuous function with a sign change)."
  },
  {
   "property": "C130",
   "status": "proved",
   "theorems": [
    "Verif.Props.C130_detection_size_consistent"
   ],
   "note": "The limit is the size at which a Gaussian error of the same standard deviation gives the level p: when the errors are not Gaussian this is what the Gaussian method estimates. The root finder is taken by contract."
  },
  {
   "property": "C131",
   "status": "partial",
   "theorems": [
    "Verif.Props.C131_history_partial",
    "Verif.Props.C131_violated",
    "Verif.Props.C131_message_partial",
    "Verif.Props.C131_gaussKronrod"
   ],
   "note": "Proved for every setting except the defect sizes, for which it holds when no call is rejected: a rejected setDefectSizes overwrites the sizes (C131_violated, for every history). The two settings of the classifier are in C56."
  },
  {
   "property": "C132",
   "status": "partial",
   "theorems": [
    "Verif.Props.C132_row_partial",
    "Verif.Props.C132_violated"
   ],
   "note": "Violated (C132_violated, for every method and every curve): both sizes are asked in one protected call, so when the curve at the confidence level does not reach the probability level both columns show -1, although computeDetectionSize(p) alone returns the size. Restricted: when both curves reach the level both rounded roots are shown."
  },
  {
   "property": "C133",
   "status": "partial",
   "theorems": [
    "Verif.Props.C133_warning_partial",
    "Verif.Props.C133_violated",
    "Verif.Props.C133_lines_partial"
   ],
   "note": "Violated (C133_violated): with censored data and only methods of the linear model active, the warning is given, without any method name. Restricted: C133_lines_partial gives the exact list of lines of the text for all tables; C133_warning_partial: no warning without censoring, and with censoring the names in the warning are exactly those of the active methods that use filtered data (kriging only with several inputs)."
  },
  {
   "property": "C134",
   "status": "proved",
   "theorems": [
    "Verif.Props.C134_settings_followed"
   ],
   "note": "For every history, whether or not calls raise. The method without hypothesis on the residuals does not simulate and keeps its default number of simulations, which the property does not constrain. The objects are represented by their constructor arguments and settings; what their classes do with them is the subject of other properties."
  },
  {
   "property": "C135",
   "status": "proved",
   "theorems": [
    "Verif.Props.C135_mean_closest",
    "Verif.Props.C135_variance_closest"
   ],
   "note": "Kullback-Leibler divergence of Mathlib (klDiv), all probability measures as competitors. Contracts, as in C61 and C62: for a Uniform marginal fsolve returns a root of M'/M = delta (it exists exactly for the means inside the interval, C61_admissible), the optimiser of the variance perturbation returns a local minimum of H; integrals are exact."
  },
  {
   "property": "C136",
   "status": "proved",
   "theorems": [
    "Verif.Props.C136_units",
    "Verif.Props.C136_entries"
   ],
   "note": "Exact real arithmetic with numpy divisions (NaN and infinities). The normality and Kolmogorov tests of OpenTURNS are parameters with the contract that they do not depend on the scale (proved instance: ratioEnv); the same simulated samples are used for both data sets."
  },
  {
   "property": "C137",
   "status": "partial",
   "theorems": [
    "Verif.Props.C137_violated",
    "Verif.Props.C137_valid_partial",
    "Verif.Props.C137_violated_false_alarm"
   ],
   "note": "C137_valid_partial: with residuals around a constant mean the p-value is valid for every number of observations and simulations. Violated for the residuals of a regression, because the simulated samples are only centred and not regressed on the defects: with three observations the p-value does not depend on the signals at all (C137_violated), and when the last two defects are equal it is 0 for almost all simulations, so that a constant variance is always rejected (C137_violated_false_alarm)."
  },
  {
   "property": "C138",
   "status": "proved",
   "theorems": [
    "Verif.Props.C138_null_index",
    "Verif.Props.C138_unbiased"
   ],
   "note": "Independent draws, exact densities. The convergence uses C119, the unbiasedness C107; the new fact is that an event that does not involve the input has the same probability under both laws (Fubini)."
  },
  {
   "property": "C139",
   "status": "partial",
   "theorems": [
    "Verif.Props.C139_range_partial",
    "Verif.Props.C139_violated"
   ],
   "note": "C139_range_partial: the estimate is not negative, has expectation at most 1 and exceeds c with probability at most 1/c. Violated: the weights are not normalised, for every Normal input, number of simulations and bound there is a history with an estimate above the bound (C139_violated)."
  },
  {
   "property": "C140",
   "status": "partial",
   "theorems": [
    "Verif.Props.C140_exact_partial",
    "Verif.Props.C140_estimate_partial",
    "Verif.Props.C140_violated",
    "Verif.Props.C140_violated_exact"
   ],
   "note": "C140_exact_partial: the exact probabilities increase. C140_estimate_partial: the estimates increase as long as the new mean is not above the input of a failure point. Violated beyond: for every history the estimate tends to 0 when the mean tends to infinity, whereas the probability tends to 1 (C140_violated, C140_violated_exact)."
  },
  {
   "property": "C141",
   "status": "proved",
   "theorems": [
    "Verif.Props.C141_linear",
    "Verif.Props.C141_chaos",
    "Verif.Props.C141_quantile_regression",
    "Verif.Props.C141_detection_size"
   ],
   "note": "Paired runs on the same draws. The laws fitted on residuals have decreasing complementary distribution functions (contract); simulated standard deviations are positive. Binomial POD: confidence levels above one half (C21). The claim on detection sizes needs a strictly increasing continuous curve, as C18. Kriging is C142."
  },
  {
   "property": "C142",
   "status": "partial",
   "theorems": [
    "Verif.Props.C142_mean_partial",
    "Verif.Props.C142_violated"
   ],
   "note": "C142_mean_partial: the expectation decreases. Violated for the simulated values: a Normal law is attached to each trajectory, so the values for the smaller threshold are negative with positive probability when those for the larger one are all 0 (C142_violated)."
  },
  {
   "property": "C143",
   "status": "partial",
   "theorems": [
    "Verif.Props.C143_run_iff_partial",
    "Verif.Props.C143_violated"
   ],
   "note": "C143_run_iff_partial: exact condition: every requested quantile line meets the threshold between the defect 0 and the largest defect, and on each bootstrap sample between -MaxScalar and the largest defect; on failure the curve of an earlier run stays. Violated: four observations with signals on both sides of the threshold at both defects make the run raise for every list with a level below one half (C143_violated)."
  },
  {
   "property": "C144",
   "status": "proved",
   "theorems": [
    "Verif.Props.C144_share"
   ],
   "note": "Exact regression lines (minimisers of the pinball loss, whose existence is proved in quantReg_exists); the solver returns a crossing of a line with the threshold."
  },
  {
   "property": "C145",
   "status": "proved",
   "theorems": [
    "Verif.Props.C145_units"
   ],
   "note": "The POD curve at the data and the detection sizes. The bootstrap rows are not included: the lower bound of their solver is a constant that does not follow the unit. Uniqueness of the lines is assumed, since the linear programme may have several solutions."
  },
  {
   "property": "C146",
   "status": "partial",
   "theorems": [
    "Verif.Props.C146_kriging_partial",
    "Verif.Props.C146_chaos_partial",
    "Verif.Props.C146_violated"
   ],
   "note": "C146_kriging_partial: exactly zero with kriging. C146_chaos_partial: with polynomial chaos the numerator has an expectation of at most N/(2S). Violated: the chaos POD draws the residuals again for each point of the design, hence the numerator has a positive expectation for all metamodels ignoring the parameter (C146_violated). The layout of the design and the Jansen estimator are external, modelled in Model/SobolDesign."
  },
  {
   "property": "C147",
   "status": "partial",
   "theorems": [
    "Verif.Props.C147_limit_partial",
    "Verif.Props.C147_kriging_partial",
    "Verif.Props.C147_violated"
   ],
   "note": "C147_kriging_partial: almost sure convergence with kriging, for independent parameters (C147_limit_partial: any function with values in [0, 1]). Violated: with polynomial chaos the limit is (V_T + n)/(V + n), n > 0 being the mean variance of the simulation, for all metamodels; it is larger than V_T/V unless that is one (C147_violated)."
  },
  {
   "property": "C148",
   "status": "partial",
   "theorems": [
    "Verif.Props.C148_kriging_partial",
    "Verif.Props.C148_violated"
   ],
   "note": "C148_kriging_partial: all four methods with kriging, for independent parameters. The centring of the outputs is any sequence converging to their mean. Violated: with polynomial chaos all four methods converge to V_i/(V + n) and (V_T + n)/(V + n), n > 0 being the mean variance of the simulation; positive first-order indices are underestimated and total indices below one overestimated (C148_violated). The estimators are external, modelled in Model/SobolMethods."
  },
  {
   "property": "C149",
   "status": "proved",
   "theorems": [
    "Verif.Props.C149_kriging",
    "Verif.Props.C149_chaos",
    "Verif.Props.C149_chaos_sum",
    "Verif.Props.C149_kriging_sum"
   ],
   "note": "C149_kriging, C149_chaos: order of the limits. C149_kriging_sum, C149_chaos_sum: sum of the first-order indices. With kriging the POD must not be constant at the defect size."
  },
  {
   "property": "C150",
   "status": "proved",
   "theorems": [
    "Verif.Props.C150_chaos",
    "Verif.Props.C150_hitmiss"
   ],
   "note": "C150_chaos: POD curve and confidence curves, everywhere in the range of the sizes. C150_hitmiss: POD curve."
  },
  {
   "property": "C151",
   "status": "partial",
   "theorems": [
    "Verif.Props.C151_hitmiss_partial",
    "Verif.Props.C151_kriging_partial",
    "Verif.Props.C151_violated"
   ],
   "note": "C151_hitmiss_partial, C151_kriging_partial: level times the POD at this level is at most the POD, when the simulated values are not negative. Violated: when the classifier gives 1 to all but a few simulated parameters, less than n(1 - level) - 1/2 of them, the POD at this level is 1, above the POD (C151_violated)."
  },
  {
   "property": "C152",
   "status": "partial",
   "theorems": [
    "Verif.Props.C152_violated",
    "Verif.Props.C152_limit_partial"
   ],
   "note": "C152_limit_partial: the limit is the quantile of order 1 - level of the probability given by the classifier to a random parameter. Violated: when more than a share 1 - level of the parameters have a probability of at most v, below the POD, the confidence curve stays below v (C152_violated); it measures the dispersion over the parameters, not an uncertainty of the POD."
  },
  {
   "property": "C153",
   "status": "partial",
   "theorems": [
    "Verif.Props.C153_exact_partial",
    "Verif.Props.C153_violated",
    "Verif.Props.C153_impossible_violated",
    "Verif.Props.C153_mean_violated"
   ],
   "note": "C153_exact_partial: the variance r (b - a)^2 is honoured exactly when the multipliers, T(r)/(b - a)^2 and (a + b) times it, are in the box of the optimiser, of half side 1000; the multipliers exist for every 0 < r < 1/4. Violated: for every r other than the original one, every interval short enough (the same input in a larger unit) gets a density with another variance (C153_violated); a variance of at least (b - a)^2/4 is accepted though no density has it (C153_impossible_violated); so is a mean outside the interval (C153_mean_violated)."
  },
  {
   "property": "C154",
   "status": "partial",
   "theorems": [
    "Verif.Props.C154_signal_partial",
    "Verif.Props.C154_signal_violated",
    "Verif.Props.C154_second_run",
    "Verif.Props.C154_hitmiss_violated",
    "Verif.Props.C154_extra_violated",
    "Verif.Props.C154_one_point_violated"
   ],
   "note": "C154_signal_partial: one run of AdaptiveSignalPOD adds distinct points, new when the candidates are. C154_second_run: a second run chooses among all the candidates again, those evaluated included (assumption: ot.SobolSequence() always gives the same points). Violated: with a criterion of the candidate alone a second run evaluates the same points in the same order (C154_signal_violated); the hit-miss run never removes a candidate, and with a classifier that is right everywhere evaluates the same five in each iteration (C154_hitmiss_violated); the physical model is called for five candidates even when fewer are missing, a failure on a discarded one ends the run (C154_extra_violated, C154_one_point_violated)."
  },
  {
   "property": "C155",
   "status": "proved",
   "theorems": [
    "Verif.Props.C155_unique",
    "Verif.Props.C155_unimodal",
    "Verif.Props.C155_units"
   ],
   "note": "The criterion is the profile log-likelihood of ot.BoxCoxFactory; the search itself is external. Up to an increasing function the criterion is the opposite of a sum of squares of strictly convex functions of the exponent (C155_unimodal, C155_unique)."
  },
  {
   "property": "C156",
   "status": "partial",
   "theorems": [
    "Verif.Props.C156_positive_partial",
    "Verif.Props.C156_offset_partial",
    "Verif.Props.C156_violated"
   ],
   "note": "Violated when a signal is negative: the shift brings the smallest signal to 100 in every unit, and the POD at every size depends strictly on the unit (C156_violated: every data set with two signal values taken equally often). Proved for positive signals, also for a power of the signals and with the defects in another unit (C156_positive_partial), and for an offset that keeps the smallest signal negative (C156_offset_partial). Gaussian and binomial POD; the least squares are exact and the Box-Cox search returns a maximiser (instance bcEnv)."
  },
  {
   "property": "C157",
   "status": "partial",
   "theorems": [
    "Verif.Props.C157_sign",
    "Verif.Props.C157_defects_ignored",
    "Verif.Props.C157_recovered_partial",
    "Verif.Props.C157_violated",
    "Verif.Props.C157_linear_violated"
   ],
   "note": "Violated: the parameter depends on the signals only (C157_defects_ignored) and its sign is opposite to that of the third central moment of the logarithms of the signals (C157_sign). For exponential signals the logarithm is found exactly when the third central moment of the defects vanishes (C157_recovered_partial); otherwise, with three different defects, the residuals do not vanish and the standard error is positive (C157_violated). Linear signals may be transformed by the logarithm (C157_linear_violated)."
  },
  {
   "property": "C158",
   "status": "proved",
   "theorems": [
    "Verif.Props.C158_local",
    "Verif.Props.C158_unique",
    "Verif.Props.C158_run",
    "Verif.Props.C158_run_succeeds",
    "Verif.Props.C158_plateau"
   ],
   "note": "Negative log likelihood as a function of (intercept/s, slope/s, 1/s) is strictly convex: the normal distribution function and its complement are log-concave (PhiLog). Local minima are therefore global and unique (C158_local, C158_unique); existence is C115. Runs: C158_run, C158_run_succeeds, for optimisers that return a minimiser when there is one (ExactFit); scipy's fmin stops at absolute tolerances, which is outside the model. A point with a negative scale has an infinite objective all around (C158_plateau), hence the hypothesis of a finite objective."
  },
  {
   "property": "C159",
   "status": "proved",
   "theorems": [
    "Verif.Props.C159_units"
   ],
   "note": "Without Box-Cox (C156 treats Box-Cox), for optimisers that return a minimiser when there is one (ExactFit); scipy's fmin stops at absolute tolerances, which is outside the model. The likelihood in the new units is the old one up to a constant at the converted parameters, and the minimiser is unique (C158)."
  },
  {
   "property": "C160",
   "status": "partial",
   "theorems": [
    "Verif.Props.C160_monotone_partial",
    "Verif.Props.C160_binomial",
    "Verif.Props.C160_confidence",
    "Verif.Props.C160_gauss",
    "Verif.Props.C160_qr_partial",
    "Verif.Props.C160_violated"
   ],
   "note": "False for quantile regression: on the defects 0, 2, 3, 4 with the signals 0, 1, 2, 3 and the threshold 5/2 every exact solver gives a50 = 15/4 and a90 = 7/2, because the regression lines cross (C160_violated). True for the Gaussian POD, strictly and even where that POD is not monotone (C160_gauss), for every non-decreasing curve with jumps (C160_monotone_partial), for the binomial POD with a slope that is not negative (C160_binomial), and for two confidence levels above one half of the binomial POD (C160_confidence, the probability level not being exactly the top of the curve). For quantile regression with exact lines that do not approach each other from the average defect on (C160_qr_partial)."
  },
  {
   "property": "C161",
   "status": "proved",
   "theorems": [
    "Verif.Props.C161_interpolates",
    "Verif.Props.C161_variance",
    "Verif.Props.C161_nonneg",
    "Verif.Props.C161_pod"
   ],
   "note": "Library formulas of universal kriging in the bordered form used by _computeLOO (Model/KrigPredict); exact linear algebra, no nugget. C161_interpolates, C161_variance, C161_nonneg, C161_pod. Invertibility follows from a positive definite covariance matrix and independent trends (bordered_isUnit); the exponential covariance model is shown to be an instance (expCov_isCovariance)."
  },
  {
   "property": "C162",
   "status": "partial",
   "theorems": [
    "Verif.Props.C162_frozen_mean",
    "Verif.Props.C162_frozen_variance",
    "Verif.Props.C162_temporary_partial",
    "Verif.Props.C162_coordinates",
    "Verif.Props.C162_violated"
   ],
   "note": "Violated: the temporary model is normalised again with the candidate in the design while the covariance parameters, which refer to normalised coordinates, are kept. With the exponential covariance and the signals 0, 1 at the sizes 0, 1 the prediction at 2 changes from 1/2 + exp(-sqrt 2/theta)/2 to 1/2 + exp(-2/theta)/2 when the candidate 1/2 is tried with its predicted signal (C162_violated). The coordinates change for every candidate (C162_coordinates). With kept coordinates both parts would hold (C162_frozen_mean, C162_frozen_variance). True of the code: the temporary model goes through the observations and the predicted signal of the candidate, with zero variance (C162_temporary_partial)."
  },
  {
   "property": "C163",
   "status": "partial",
   "theorems": [
    "Verif.Props.C163_mean",
    "Verif.Props.C163_variance_partial",
    "Verif.Props.C163_origin_violated",
    "Verif.Props.C163_unit_violated"
   ],
   "note": "Proved for the mean indices (every affine change of units) and, for the variance indices, for changes of unit with the origin kept and the variance reached in both units. Violated for changes of origin (C163_origin_violated) and for small units of a Uniform input (C163_unit_violated)."
  },
  {
   "property": "C164",
   "status": "partial",
   "theorems": [
    "Verif.Props.C164_title_partial",
    "Verif.Props.C164_violated",
    "Verif.Props.C164_before_run",
    "Verif.Props.C164_empty_violated",
    "Verif.Props.C164_labels",
    "Verif.Props.C164_default_labels",
    "Verif.Props.C164_hidden_violated",
    "Verif.Props.C164_jansen_total",
    "Verif.Props.C164_titles"
   ],
   "note": "Proved: the points, the result object and the errors before a run, for every history; the title is right exactly when the method was not changed since the run. Violated: C164_violated (title), C164_empty_violated (empty figure without a run), C164_hidden_violated (negative indices hidden)."
  },
  {
   "property": "C165",
   "status": "partial",
   "theorems": [
    "Verif.Props.C165_count_partial",
    "Verif.Props.C165_errors",
    "Verif.Props.C165_conservative_partial",
    "Verif.Props.C165_violated",
    "Verif.Props.C165_curve_violated"
   ],
   "note": "Proved for every rounding to nearest: the count is k or k-1 and the curve is never above the exact one (k < N or level > 1/2). Violated: C165_violated, C165_curve_violated (the count is one short for 1 of 5 and 15 of 22)."
  },
  {
   "property": "C166",
   "status": "partial",
   "theorems": [
    "Verif.Props.C166_linear",
    "Verif.Props.C166_label_partial",
    "Verif.Props.C166_violated",
    "Verif.Props.C166_quantile",
    "Verif.Props.C166_chaos"
   ],
   "note": "Proved for every analysis: points, line, residuals, errors; quantile and chaos figures; when the label is right. Violated: C166_violated (the label depends on the model asked for, not on the transformation)."
  },
  {
   "property": "C167",
   "status": "partial",
   "theorems": [
    "Verif.Props.C167_uniform_mean",
    "Verif.Props.C167_normal_mean",
    "Verif.Props.C167_normal_scaled",
    "Verif.Props.C167_normal_variance",
    "Verif.Props.C167_uniform_variance_partial",
    "Verif.Props.C167_violated"
   ],
   "note": "Proved for means (Normal over any window centred on the mean; Uniform, with a root of the moment equation) and for variances of a Normal marginal (range = whole line); for a Uniform marginal when the requested variance is honoured. Violated: on [-w, w] all variances above exp(1000 w^2) w^2/3 get the same density and the same abscissa, since the multiplier stops at the corner of the fixed box [-1000, 1000]^2. With sigmaScaled all Normal marginals share their abscissas. Exact quadrature."
  },
  {
   "property": "C168",
   "status": "proved",
   "theorems": [
    "Verif.Props.C168_consistency"
   ],
   "note": "For all square-integrable non-constant laws of the defects; the optimiser is exact (contract ExactFit, an instance is proved to exist). Real arithmetic, Box-Cox off."
  },
  {
   "property": "C169",
   "status": "partial",
   "theorems": [
    "Verif.Props.C169_limit_partial",
    "Verif.Props.C169_violated"
   ],
   "note": "Violated for every noise threshold given alone and every saturation threshold given alone, at every size and for every detection threshold: the residuals of the censored observations are missing from the count, the limit is strictly above (noise) or strictly below (saturation) the truth. Proved: with any thresholds the curve converges to the probability given that the observation of the error is kept (C169_limit_partial)."
  },
  {
   "property": "C170",
   "status": "proved",
   "theorems": [
    "Verif.Props.C170_curve",
    "Verif.Props.C170_size"
   ],
   "note": "Regression exact (contract QuantRegExact, an instance exists); real arithmetic. The curve between two levels is only claimed to be between them. Without thresholds: with thresholds the regression uses the kept observations only."
  },
  {
   "property": "C171",
   "status": "proved",
   "theorems": [
    "Verif.Props.C171_curve"
   ],
   "note": "chaos_fit_limit (coefficients and residual variance, any centred square integrable errors) and C171_curve (curve of the run, double limit: sampling size first, then number of observations). The sparse selection of the basis by the library is outside: the basis is fixed and contains the true combination."
  },
  {
   "property": "C172",
   "status": "proved",
   "theorems": [
    "Verif.Props.C172_curve",
    "Verif.Props.C172_size"
   ],
   "note": "C172_curve and C172_size. Contract KernelFactory for ot.KernelSmoothing().build (kernel mixture, bandwidth of the order of Silverman's rule; kernelFactory_exists); the binning of large samples by the library is not modelled. BracketSpec needs no continuity, so that the step function of the binomial POD is covered."
  },
  {
   "property": "C173",
   "status": "proved",
   "theorems": [
    "Verif.Props.C173_gap",
    "Verif.Props.C173_curve",
    "Verif.Props.C173_size"
   ],
   "note": "C173_gap (all data), C173_curve, C173_size. Contract QBetaSpec for the quantile of the Beta law, BracketSpec for the solver (both with a proven instance)."
  },
  {
   "property": "C174",
   "status": "partial",
   "theorems": [
    "Verif.Props.C174_breuschPagan_partial",
    "Verif.Props.C174_violated"
   ],
   "note": "C174_breuschPagan_partial: the p-value of Breusch-Pagan tends to 0 almost surely for every law with fourth moments whose squared errors are correlated with the defects. Violated for Harrison-McCabe (C174_violated): the code splits the residuals in the order of the data file, without sorting them by defect; for every law without atom in the defect and without line of positive mass, every even number of observations and every number of simulations, the p-value is below 1/2 with probability at most 3/4, so the power never approaches 1 however the variance depends on the defect. Contract: pChi is the chi-square cdf (only its limit 1 is used)."
  },
  {
   "property": "C175",
   "status": "proved",
   "theorems": [
    "Verif.Props.C175_level"
   ],
   "note": "C175_level. Contract: the chi-square(1) cdf at t is the standard normal mass of [-sqrt t, sqrt t] (the definition of the law)."
  },
  {
   "property": "C176",
   "status": "proved",
   "theorems": [
    "Verif.Props.C176_moments",
    "Verif.Props.C176_false_alarm"
   ],
   "note": "C176_moments and C176_false_alarm, for at least 3 observations (with 2 the code divides by zero, see C177). The matrix algebra of the code (Gram matrix, linear solve, traces) is modelled entry by entry over the reals."
  },
  {
   "property": "C177",
   "status": "partial",
   "theorems": [
    "Verif.Props.C177_number_partial",
    "Verif.Props.C177_violated",
    "Verif.Props.C177_three_partial"
   ],
   "note": "Violated (C177_violated): with three observations the variance of the statistic is exactly 0 and the statistic equals its mean for every design and all signals, so the code divides 0 by 0 and the p-value is NaN (in exact arithmetic; in floating point it is rounding noise). With two observations the code divides by nx - 2 = 0 and raises. Restricted (C177_number_partial): with at least 7 observations, not all at one defect, and residuals not all zero the p-value is a number in [0,1]. With three observations and residuals of another line, such as the line of a censored fit, the variance is still 0 and the p-value is exactly 0 whenever the statistic differs from its mean (C177_three_partial)."
  },
  {
   "property": "C178",
   "status": "proved",
   "theorems": [
    "Verif.Props.C178_power"
   ],
   "note": "C178_power."
  },
  {
   "property": "C179",
   "status": "proved",
   "theorems": [
    "Verif.Props.C179_level"
   ],
   "note": "C179_level. Normal errors; the designs are arbitrary and need not be nested or converge."
  },
  {
   "property": "C180",
   "status": "proved",
   "theorems": [
    "Verif.Props.C180_model",
    "Verif.Props.C180_run",
    "Verif.Props.C180_pod"
   ],
   "note": "C180_model, C180_run, C180_pod. The covariance model is the AbsoluteExponential (a user choice through setCovarianceModel); the default SquaredExponential is not covered since its signal class is too small for such a result. The optimiser is arbitrary within a range of scales and amplitudes. Exact linear algebra. The limit is iterated: sampling size fixed, observations to infinity with the same draws, then sampling size to infinity."
  },
  {
   "property": "C181",
   "status": "partial",
   "theorems": [
    "Verif.Props.C181_violated",
    "Verif.Props.C181_saturation_partial"
   ],
   "note": "False: C181_violated. With a noise threshold the line at level 1 - p is fitted on the signals above the threshold only, so it lies above the true quantile line; for two sizes with a part of the signals filtered at each of them, and any error law that increases at its quantile, there is a fixed gap such that eventually computeDetectionSize(p) always returns a size whose true probability of detection is below p by at least this gap. C181_saturation_partial: with a saturation threshold only, the same designs eventually give sizes detected with probability at least p. Not covered: designs with more than two sizes, where the direction of the shift depends on the design."
  },
  {
   "property": "C182",
   "status": "proved",
   "theorems": [
    "Verif.Props.C182_normality"
   ],
   "note": "C182_normality. The three p-values are external calls to OpenTURNS; the contract FittingTests asks only that the p-value tends to zero when the distance the test is built on (largest gap, quadratic distance, weighted quadratic distance of the empirical and the given law) stays above a positive number; fittingTests_exist gives an instance. What is proved is about the code: which residuals are tested, against which law, and that the fitted residuals have the law of the errors in the limit."
  },
  {
   "property": "C183",
   "status": "partial",
   "theorems": [
    "Verif.Props.C183_limit",
    "Verif.Props.C183_violated",
    "Verif.Props.C183_uncensored_partial"
   ],
   "note": "False: C183_violated. The residuals tested for the censored fit are those of the kept signals against the censored line, which converges to the true line (C168); the kept errors are truncated, so their mean does not tend to zero (positive with a noise threshold, negative with a saturation threshold), and the p-value tends to zero almost surely. C183_limit: the same for any pair of thresholds for which the mean of the kept errors is not zero. C183_uncensored_partial: the column of the uncensored fit in the same run has the p-value 1. The Student distribution function is pinned exactly (StudentCdf: law of a normal variable over the root of a mean of squares)."
  },
  {
   "property": "C184",
   "status": "proved",
   "theorems": [
    "Verif.Props.C184_coverage"
   ],
   "note": "C184_coverage. statsmodels' conf_int is an external function, modelled by its documented formula (estimate plus or minus the Student quantile with n - 2 degrees of freedom times the standard error from the regression matrix built by the code); the quantile function is pinned by the exact Student law (StudentQuantile, studentQuantile_exists). The rounding of the printed interval is left out."
  },
  {
   "property": "C185",
   "status": "partial",
   "theorems": [
    "Verif.Props.C185_violated",
    "Verif.Props.C185_uncensored_partial"
   ],
   "note": "Violated (C185_violated): the interval comes from least squares on the observations between the thresholds (lines 176-252), where the error depends on the size. With probability one, for all large samples, the whole interval is on the side of zero of the true slope, for every choice of one or two thresholds. The analysis prints no interval for the censored fit. Restricted (C185_uncensored_partial): without thresholds the probability is exactly 0.95 for every run. statsmodels' conf_int is modelled as for C184."
  },
  {
   "property": "C186",
   "status": "proved",
   "theorems": [
    "Verif.Props.C186_separates"
   ],
   "note": "C186_separates. ot.Brent is an external function with the contract of C16 (a root in the interval, for continuous functions with values on both sides). The Gaussian POD is not monotone, but for each level the set of sizes above the level is cut out by a convex or concave function."
  },
  {
   "property": "C187",
   "status": "partial",
   "theorems": [
    "Verif.Props.C187_violated",
    "Verif.Props.C187_six_partial"
   ],
   "note": "Violated (C187_violated): with three observations the residuals of every data set are a multiple of one vector fixed by the defects, so all seven p-values of the analysis are the same for all signals that are not on a line: the tests accept or reject by the choice of the defects. The normality and Kolmogorov tests are parameters that do not depend on scale and sign; statEnv_even proves this for the statistics of Kolmogorov and of Cramer and von Mises. Restricted (C187_six_partial): with at least six observations every design has signals with the Harrison-McCabe p-value 1 and signals with the p-value 0."
  },
  {
   "property": "C188",
   "status": "proved",
   "theorems": [
    "Verif.Props.C188_kriging",
    "Verif.Props.C188_chaos"
   ],
   "note": "C188_kriging, C188_chaos: no invertibility is needed, because the statement is about the computed expressions. The estimation of the covariance parameters (an optimisation with random starting points) and the selection of the chaos basis are external and kept fixed."
  },
  {
   "property": "C189",
   "status": "partial",
   "theorems": [
    "Verif.Props.C189_violated_batches",
    "Verif.Props.C189_batches_partial",
    "Verif.Props.C189_violated",
    "Verif.Props.C189_perfect_partial"
   ],
   "note": "Violated: the confusion matrix [true, predicted] is divided by its column sums, so that p11 and p10 are the probabilities of a true detection given the prediction; agg_classifier inverts them as if they were the probabilities of a predicted detection given the truth. C189_violated: for every run with one batch the corrected share equals the observed share exactly when the numbers of wrong detections and wrong misses are equal (no correction needed), and for a classifier better than chance the correction has the wrong sign. C189_perfect_partial: without errors on the design the correction is the identity. C189_violated_batches: for every number of batches, with the averaged shares of the library, the corrected probability is on the other side of the new classifier's probability than the calibrated one and agrees with it only where there is nothing to correct; C189_batches_partial: no correction without errors. Missing: nothing but classifiers with errors, for which the claim is false."
  },
  {
   "property": "C190",
   "status": "partial",
   "theorems": [
    "Verif.Props.C190_violated",
    "Verif.Props.C190_limit_partial"
   ],
   "note": "Violated: the POD uses the normal law although the residual deviation is estimated. C190_violated: for every design the exact probability is the Student distribution function with N-2 degrees of freedom at the normal quantile of p, strictly smaller than p for p > 1/2 and strictly larger for p < 1/2; the threshold exists and is unique for almost all data. C190_limit_partial: the error tends to zero with the number of observations, uniformly over designs, lines, sizes and variances, and is zero for p = 1/2."
  },
  {
   "property": "C191",
   "status": "partial",
   "theorems": [
    "Verif.Props.C191_violated",
    "Verif.Props.C191_limit_partial"
   ],
   "note": "Violated: the expectation is computed exactly for every design; it is the mean over the observations of probabilities with the error variance multiplied by 1 + (leverage of the size - leverage of the observation). At the mean observed size it is strictly above the true POD when that exceeds 1/2 and strictly below when it is less than 1/2 (C191_violated). Restricted: the bias is below any eps, uniformly over designs, lines and variances with the same standardised distance to the threshold, when all the leverages are small (C191_limit_partial). Missing: absence of bias for a fixed design, which is false."
  },
  {
   "property": "C192",
   "status": "partial",
   "theorems": [
    "Verif.Props.C192_violated",
    "Verif.Props.C192_step_partial",
    "Verif.Props.C192_samples_partial",
    "Verif.Props.C192_copies_partial"
   ],
   "note": "Violated: a polynomial chaos run replaces the names of the components of the distribution given by the caller by the default names of the copied sample (C192_violated, every data set, law and names). Restricted: after every history a step changes an object of the caller only if it is a write of the caller or a chaos run with that distribution, and then the law is kept (C192_step_partial); samples of the caller are never changed (C192_samples_partial); data are copied at construction, nothing the caller or other objects do reaches them before the object is run or asked for its design (C192_copies_partial). Missing: the names of the distribution."
  },
  {
   "property": "C193",
   "status": "partial",
   "theorems": [
    "Verif.Props.C193_violated",
    "Verif.Props.C193_hitmiss_partial",
    "Verif.Props.C193_boxcox_partial"
   ],
   "note": "Violated: after every history the input design returned by an adaptive signal POD is the object the next run appends to (likewise the signals without Box-Cox), and a write of the caller into it is the design of the next run (C193_violated). Restricted: the input design of a hit miss POD keeps its content whatever is run afterwards (C193_hitmiss_partial); with Box-Cox the returned signals are a new object that keeps the inverse transform (C193_boxcox_partial). Missing: the adaptive signal POD, where it is false."
  },
  {
   "property": "C194",
   "status": "proved",
   "theorems": [
    "Verif.Props.C194_fair",
    "Verif.Props.C194_normal"
   ],
   "note": "C194_fair treats any sign-invariant joint law of the errors (C194_normal: independent normal errors, both models); together with C190 and C191 it locates the bias of the two PODs away from the half size."
  },
  {
   "property": "C195",
   "status": "partial",
   "theorems": [
    "Verif.Props.C195_linear_partial",
    "Verif.Props.C195_quantile_partial",
    "Verif.Props.C195_pli_partial",
    "Verif.Props.C195_kriging_partial",
    "Verif.Props.C195_violated",
    "Verif.Props.C195_violated_stale",
    "Verif.Props.C195_violated_sobol"
   ],
   "note": "Violated three times: the metamodels keep the default distribution of the first run (C195_violated), a Sobol run drops defect sizes for all later runs (C195_violated_sobol), and a run that raises leaves the POD of the earlier run in place (C195_violated_stale). Proved: runs of the linear model and of the quantile regression after every history (C195_linear_partial, C195_quantile_partial), of the perturbation indices after accepted calls (C195_pli_partial), of kriging with a given distribution (C195_kriging_partial)."
  },
  {
   "property": "C196",
   "status": "proved",
   "theorems": [
    "Verif.Props.C196_line",
    "Verif.Props.C196_outlier"
   ],
   "note": "Exact regression assumed for QuantReg.fit (contract QuantRegExact, met by quantReg_exists) with a unique best line; without Box-Cox and thresholds. The confidence curve is not concerned (its resamples repeat the moved signals)."
  },
  {
   "property": "C197",
   "status": "partial",
   "theorems": [
    "Verif.Props.C197_violated_limit",
    "Verif.Props.C197_violated",
    "Verif.Props.C197_line_partial"
   ],
   "note": "Violated for every data set with residuals, every observation and every size, for all thresholds below some value (C197_violated): when one signal grows the Gaussian POD tends to a value between 0 and 1 that depends neither on the other signals nor on the threshold (C197_violated_limit). Proved when the signals are raised along a line (C197_line_partial), both models."
  },
  {
   "property": "C198",
   "status": "partial",
   "theorems": [
    "Verif.Props.C198_binomial_partial",
    "Verif.Props.C198_violated",
    "Verif.Props.C198_quantile_partial"
   ],
   "note": "Violated by the Gaussian model at every size where the line is not exactly at the threshold: the POD moves away from one half (C198_violated; fewer degrees of freedom are lost, smaller prediction variance). Proved: line and binomial POD (C198_binomial_partial), POD curve and detection sizes of the quantile regression (C198_quantile_partial)."
  },
  {
   "property": "C199",
   "status": "proved",
   "theorems": [
    "Verif.Props.C199_curves",
    "Verif.Props.C199_rate",
    "Verif.Props.C199_detection_size"
   ],
   "note": "Uniform convergence (C199_curves), error bound of second order (C199_rate) and convergence of both detection sizes (C199_detection_size), with the simulation errors at the sizes as parameter; the solver by its contract."
  },
  {
   "property": "C200",
   "status": "proved",
   "theorems": [
    "Verif.Props.C200_linear",
    "Verif.Props.C200_censored",
    "Verif.Props.C200_quantile"
   ],
   "note": "C200_linear (no thresholds, every factory, curves of the band included), C200_censored (thresholds, exact censored fits), C200_quantile (POD curve and detection sizes, unique regressions). Least squares, censored fit and quantile regression by their contracts."
  },
  {
   "property": "C201",
   "status": "partial",
   "theorems": [
    "Verif.Props.C201_read_at_once",
    "Verif.Props.C201_snapshot_partial",
    "Verif.Props.C201_violated",
    "Verif.Props.C201_violated_values"
   ],
   "note": "Violated: an array returned before a later run shows the indices of that run (C201_violated, also when the run raises on the way; C201_violated_values in terms of what the two runs computed). Proved: a single number never changes; once new sizes are accepted no earlier result changes any more, whatever is called then (C201_snapshot_partial)."
  },
  {
   "property": "C202",
   "status": "partial",
   "theorems": [
    "Verif.Props.C202_gauss_partial",
    "Verif.Props.C202_detection_size_partial",
    "Verif.Props.C202_binomial_partial",
    "Verif.Props.C202_violated"
   ],
   "note": "Violated by the binomial model: at a threshold for each observation a change as small as desired of the threshold or of the signals moves the POD by at least 1/n (C202_violated). Proved: the Gaussian POD is jointly continuous in defects, signals, threshold and size (C202_gauss_partial) and its detection size is stable (C202_detection_size_partial); away from ties the binomial POD is locally constant in all of them (C202_binomial_partial)."
  },
  {
   "property": "C203",
   "status": "partial",
   "theorems": [
    "Verif.Props.C203_unaffected_partial",
    "Verif.Props.C203_violated"
   ],
   "note": "Violated: the import sets the level of the root logger, so every logger without its own level shows the messages from INFO up to the old level, or loses those below INFO (C203_violated). Proved: loggers with their own level and roots at INFO are not affected, warnings are never lost (C203_unaffected_partial)."
  },
  {
   "property": "C204",
   "status": "partial",
   "theorems": [
    "Verif.Props.C204_names_partial",
    "Verif.Props.C204_violated"
   ],
   "note": "Violated: PLI, PLIMean and PLIVariance are missing from __all__ (C204_violated). Proved: all documented classes are attributes of the package, nothing undocumented is public, and the star import binds all others (C204_names_partial)."
  },
  {
   "property": "C205",
   "status": "proved",
   "theorems": [
    "Verif.Props.C205_limit",
    "Verif.Props.C205_exact_coverage"
   ],
   "note": "C205_limit: the curve converges almost surely to v in (0,1), where a simulated curve is at most v with probability 1-c. C205_exact_coverage: for every function V of the data which is such a limit, the probability that V(data) is below the true POD is exactly c (C128 has the bound 3/2/(M+1) for M simulations)."
  },
  {
   "property": "C206",
   "status": "proved",
   "theorems": [
    "Verif.Props.C206_profile",
    "Verif.Props.C206_perfect_fit",
    "Verif.Props.C206_maximiser"
   ],
   "note": "C206_profile: value + profileConst n is the greatest log likelihood. C206_perfect_fit: on a line the call raises and the likelihood is unbounded. C206_maximiser: same maximisers. The density of the signals carries the derivative of the transform (boxCoxFun_deriv). The class is not used by the PODs: its call in computeBoxCox is commented out."
  },
  {
   "property": "C207",
   "status": "partial",
   "theorems": [
    "Verif.Props.C207_metamodel_partial",
    "Verif.Props.C207_linear_partial",
    "Verif.Props.C207_analysis_partial",
    "Verif.Props.C207_violated",
    "Verif.Props.C207_violated_before",
    "Verif.Props.C207_violated_bootstrap"
   ],
   "note": "Violated. C207_violated: an analysis with a given parameter raises AttributeError, for all data and parameters. C207_violated_before: so do the linear and the quantile POD before run. C207_violated_bootstrap: after a quantile regression run the figure is the likelihood of the last bootstrap sample. Proved: C207_metamodel_partial (kriging, chaos, adaptive PODs; boxCox False), C207_linear_partial (linear POD after run), C207_analysis_partial (analysis with boxCox True)."
  },
  {
   "property": "C208",
   "status": "partial",
   "theorems": [
    "Verif.Props.C208_refines",
    "Verif.Props.C208_step_partial",
    "Verif.Props.C208_violated",
    "Verif.Props.C208_size_partial",
    "Verif.Props.C208_none_partial"
   ],
   "note": "Violated at one size. C208_violated: at the size where the line meets the threshold the Gaussian POD is NaN, for all exact data. Proved: C208_step_partial (all other sizes, Gaussian POD and its confidence curves; binomial POD at all sizes), C208_size_partial (all detection sizes are the crossing, root finder with the contract of a bracketing method), C208_refines (off a line the curves with the division of numpy are those of the real number models used elsewhere), C208_none_partial (a confidence curve raises exactly when there is no simulation). The sums and products are exact."
  },
  {
   "property": "C209",
   "status": "proved",
   "theorems": [
    "Verif.Props.C209_curve",
    "Verif.Props.C209_exception"
   ],
   "note": "Strong law for the shares of all sets of resamples at once, then a count argument on the sample quantile. The resamples are independent and uniform on the n^n index maps, which is the contract of BootstrapExperiment; levels c with (1-c) n^n an integer, where the exact quantile is not unique, are left out of the statement."
  },
  {
   "property": "C210",
   "status": "proved",
   "theorems": [
    "Verif.Props.C210_data",
    "Verif.Props.C210_factory",
    "Verif.Props.C210_boxCox"
   ],
   "note": "The Box-Cox function is injective, so the transformed signals are all equal exactly when the kept ones are. Fits that raise, samples with less than two kept observations and exceptions of the tests of OpenTURNS (total functions in the model) are outside the statement; arithmetic is real, so a variance of equal signals is exactly zero."
  },
  {
   "property": "C211",
   "status": "partial",
   "theorems": [
    "Verif.Props.C211_no_threshold_partial",
    "Verif.Props.C211_threshold_partial",
    "Verif.Props.C211_violated",
    "Verif.Props.C211_violated_bootstrap"
   ],
   "note": "Violated with thresholds: the random starts of the censored fit come from np.random.randn. C211_violated: for all data whose kept observations lie on a line that respects the thresholds, exact routines and the same OpenTURNS draws give POD one or zero at the same size. C211_violated_bootstrap: scattered data with one such resample. Proved: C211_no_threshold_partial (no threshold, all data, with and without Box-Cox), C211_threshold_partial (thresholds, no Box-Cox, kept observations of the data and of each resample not on a line). Exact arithmetic: underflow of the normal cdf, which also triggers random starts, is not modelled."
  },
  {
   "property": "C212",
   "status": "partial",
   "theorems": [
    "Verif.Props.C212_tables_partial",
    "Verif.Props.C212_verdict_partial",
    "Verif.Props.C212_violated_verdict",
    "Verif.Props.C212_sizes_partial",
    "Verif.Props.C212_violated_size"
   ],
   "note": "Violated by the fixed two decimals. C212_violated_verdict: equal tables, one with and one without the warning. C212_violated_size: for every increasing curve a size rounded down is shown with a probability of detection below the level, and a size below 0.005 is shown as 0. Proved: C212_tables_partial and C212_sizes_partial (two decimals, error at most 0.005), C212_verdict_partial (right side of 0.05 unless the p-value is between 0.045 and 0.055)."
  },
  {
   "property": "C213",
   "status": "partial",
   "theorems": [
    "Verif.Props.C213_curve_partial",
    "Verif.Props.C213_exception",
    "Verif.Props.C213_violated"
   ],
   "note": "Violated: C213_violated: for all data with two observations below the detection threshold, increasing in defect and signal, and exact fits, almost surely every run with enough simulations raises (the lines of the resample of these two observations stay below the threshold up to its largest defect, and Brent refuses). C213_exception: the same for any resample whose line does not meet the threshold. Proved: C213_curve_partial: when each of the n^n resamples can be solved, the confidence curve is finally the interpolation of the exact bootstrap quantiles."
  },
  {
   "property": "C214",
   "status": "partial",
   "theorems": [
    "Verif.Props.C214_same_runs_partial",
    "Verif.Props.C214_settings_partial",
    "Verif.Props.C214_violated_log",
    "Verif.Props.C214_violated_interactive"
   ],
   "note": "Violated: C214_violated_log, C214_violated_interactive hold for every state of the settings. C214_settings_partial gives the calls that leave them alone; C214_same_runs_partial ties the model to the runs adRun and hmRun."
  },
  {
   "property": "C215",
   "status": "partial",
   "theorems": [
    "Verif.Props.C215_hitmiss_partial",
    "Verif.Props.C215_chaos_exact_partial",
    "Verif.Props.C215_limit_partial",
    "Verif.Props.C215_violated_chaos",
    "Verif.Props.C215_violated_kriging"
   ],
   "note": "Violated: C215_violated_chaos and C215_violated_kriging give positive probability of a decreasing curve for every metamodel. Holds for hit-miss (C215_hitmiss_partial), for chaos without residual noise (C215_chaos_exact_partial) and for the exact POD (C215_limit_partial)."
  },
  {
   "property": "C216",
   "status": "partial",
   "theorems": [
    "Verif.Props.C216_signal_partial",
    "Verif.Props.C216_violated_overwrite",
    "Verif.Props.C216_hitmiss_partial",
    "Verif.Props.C216_same_runs_partial",
    "Verif.Props.C216_hitmiss_returns_partial",
    "Verif.Props.C216_violated_directory"
   ],
   "note": "Violated: C216_violated_overwrite (every second run), C216_violated_directory (hit-miss with a missing directory, for every environment). C216_signal_partial and C216_hitmiss_partial describe the files exactly; C216_same_runs_partial, C216_hitmiss_returns_partial: saving changes nothing else. FileNotFoundError is represented by the kind runtime."
  },
  {
   "property": "C217",
   "status": "proved",
   "theorems": [
    "Verif.Props.C217_metamodel",
    "Verif.Props.C217_curves"
   ],
   "note": "C217_metamodel, C217_curves, in exact arithmetic. Contract: ot.Normal accepts the zero covariance matrix and then returns its mean; if a version refuses it, the part on getPODModel still holds, since the curve is stored before."
  },
  {
   "property": "C218",
   "status": "partial",
   "theorems": [
    "Verif.Props.C218_hitmiss_partial",
    "Verif.Props.C218_kriging_prefix_partial",
    "Verif.Props.C218_prefix_partial",
    "Verif.Props.C218_violated_chaos",
    "Verif.Props.C218_violated_kriging",
    "Verif.Props.C218_law_partial"
   ],
   "note": "Violated: C218_violated_chaos (every metamodel with positive residual deviation), C218_violated_kriging (every metamodel with positive variance). Holds for hit-miss (C218_hitmiss_partial), when only larger sizes are added (C218_prefix_partial, C218_kriging_prefix_partial), and in law (C218_law_partial)."
  },
  {
   "property": "C219",
   "status": "partial",
   "theorems": [
    "Verif.Props.C219_built_partial",
    "Verif.Props.C219_run_partial",
    "Verif.Props.C219_violated_values",
    "Verif.Props.C219_violated_type",
    "Verif.Props.C219_violated_recover"
   ],
   "note": "Violated: C219_violated_values, C219_violated_type, C219_violated_recover, for all inputs. C219_built_partial and C219_run_partial give the classifier exactly. Training of scikit-learn is a parameter."
  },
  {
   "property": "C220",
   "status": "partial",
   "theorems": [
    "Verif.Props.C220_violated",
    "Verif.Props.C220_two_classes_partial"
   ],
   "note": "Violated: C220_violated for all data with one label. Contracts: SVC.fit refuses one class with ValueError, ExtraTreesClassifier gives one column of probabilities then. C220_two_classes_partial: exact success condition with both labels and no added points; with added points the run is hmRun (C219_run_partial) and C50-C52 apply."
  },
  {
   "property": "C221",
   "status": "proved",
   "theorems": [
    "Verif.Props.C221_curves",
    "Verif.Props.C221_detection_sizes",
    "Verif.Props.C221_sharp"
   ],
   "note": "C221_curves: run and confidence curve over the whole range. C221_detection_sizes: both detection sizes, from any curves within the bounds. C221_sharp: the interval cannot be shortened. Contract of the root finder: SolveSpec."
  },
  {
   "property": "C222",
   "status": "proved",
   "theorems": [
    "Verif.Props.C222_threshold",
    "Verif.Props.C222_near"
   ],
   "note": "C222_threshold: both curves on the whole range, the simulated vectors included. C222_near: bound by the share of signals near the threshold. The signal is compared on the scale of the metamodel (after the Box Cox transformation when used)."
  },
  {
   "property": "C223",
   "status": "partial",
   "theorems": [
    "Verif.Props.C223_batches_partial",
    "Verif.Props.C223_violated_batches",
    "Verif.Props.C223_better_partial",
    "Verif.Props.C223_violated"
   ],
   "note": "Violated: C223_violated, for every run with one batch whose initial classifier is worse than chance on the final design. C223_better_partial: order and range when it is better than chance. Several batches: C223_batches_partial and C223_violated_batches, in terms of the initial classifier and of the corrected classifier of the run without the last batch (the only two that enter the mean); mixed cases depend on the weighted sum of their shares."
  },
  {
   "property": "C224",
   "status": "partial",
   "theorems": [
    "Verif.Props.C224_batches_partial",
    "Verif.Props.C224_violated_corrected",
    "Verif.Props.C224_violated",
    "Verif.Props.C224_violated_stops",
    "Verif.Props.C224_chance_partial",
    "Verif.Props.C224_numbers_partial"
   ],
   "note": "Violated: C224_violated (any number of added points), C224_violated_stops. C224_violated_corrected: also if the corrected classifier of the run without the last batch predicts one class only. C224_numbers_partial and C224_chance_partial: all runs with one batch in which both classes are predicted; C224_batches_partial: any number of batches."
  },
  {
   "property": "C225",
   "status": "partial",
   "theorems": [
    "Verif.Props.C225_seed_partial",
    "Verif.Props.C225_violated"
   ],
   "note": "C225_seed_partial: the result and all attributes, for the random forest with a random_state (the default). Violated: C225_violated for SVC or random_state None, general in the data and the training function, without added points. That scikit-learn takes its numbers from numpy without random_state is an external fact, modelled in fitSeed."
  },
  {
   "property": "C226",
   "status": "proved",
   "theorems": [
    "Verif.Props.C226_hitmiss",
    "Verif.Props.C226_hitmiss_batches",
    "Verif.Props.C226_signal"
   ],
   "note": "The candidate design is the same for both runs (the Sobol sequence for independent parameters)."
  },
  {
   "property": "C227",
   "status": "proved",
   "theorems": [
    "Verif.Props.C227_metamodel",
    "Verif.Props.C227_curves",
    "Verif.Props.C227_default"
   ],
   "note": "Coefficients by least squares on a given basis: the selection of the basis by LARS and KFold inside OpenTURNS is outside the model (the same basis is supposed to be kept in both systems of units). Without Box-Cox. C227_default proves the hypothesis on the transformation for the default laws; with a distribution of the user it says that this distribution was converted too."
  },
  {
   "property": "C228",
   "status": "proved",
   "theorems": [
    "Verif.Props.C228_amplitude",
    "Verif.Props.C228_estimate",
    "Verif.Props.C228_curves"
   ],
   "note": "The search of the lengths (multi start TNC) is outside the model: C228_estimate shows that its problem has the same solutions. The amplitude is the analytical estimate of OpenTURNS, characterised by C228_amplitude. Without Box-Cox. The restriction on the deviations is part of the statement; C124_violated shows what happens without it."
  },
  {
   "property": "C229",
   "status": "proved",
   "theorems": [
    "Verif.Props.C229_threshold",
    "Verif.Props.C229_near",
    "Verif.Props.C229_run"
   ],
   "note": "C229_threshold and C229_near bound the mean of the mixture from which the values are drawn, given the trajectories; the drawn values themselves are not ordered by the threshold (C142_violated). C229_run is about the whole state left by run."
  },
  {
   "property": "C230",
   "status": "proved",
   "theorems": [
    "Verif.Props.C230_range",
    "Verif.Props.C230_units"
   ],
   "note": "statsmodels formula (percentile by linear interpolation, pinball loss) restated in pseudoR2; the fit under its contract (best line), shown satisfiable. The signals are those after filtering and Box-Cox."
  },
  {
   "property": "C231",
   "status": "proved",
   "theorems": [
    "Verif.Props.C231_chaos",
    "Verif.Props.C231_kriging"
   ],
   "note": "C231_chaos, C231_kriging, on top of C227_curves and C228_curves. The root finder is external, with the contract of C16 (a root in the interval for a continuous function with values on both sides): if a curve takes the level several times two correct root finders may return different roots, hence the restriction in the statement. Without Box-Cox."
  },
  {
   "property": "C232",
   "status": "proved",
   "theorems": [
    "Verif.Props.C232_scale",
    "Verif.Props.C232_coded"
   ],
   "note": "C232_scale (signals in the range of the floating point numbers in both scales, so that a missing threshold censors nothing) and C232_coded. The classifier is external and the same function in both studies."
  },
  {
   "property": "C233",
   "status": "proved",
   "theorems": [
    "Verif.Props.C233_censored",
    "Verif.Props.C233_linear"
   ],
   "note": "C233_linear (least squares, no thresholds) and C233_censored (maximum likelihood with thresholds, exact optimiser as in C158). Without Box-Cox, whose transformation is not symmetric. With ties the two binomial PODs leave out the residuals on the margin, hence the inequality."
  },
  {
   "property": "C234",
   "status": "proved",
   "theorems": [
    "Verif.Props.C234_kriging",
    "Verif.Props.C234_default",
    "Verif.Props.C234_chaos"
   ],
   "note": "C234_kriging, C234_default, C234_chaos. Without Box-Cox (the transformation of the signals does not look at the inputs). The search for the covariance parameters is external: the likelihood it maximises is shown to be the same."
  },
  {
   "property": "C235",
   "status": "proved",
   "theorems": [
    "Verif.Props.C235_no_points",
    "Verif.Props.C235_points",
    "Verif.Props.C235_law"
   ],
   "note": "C235_no_points, C235_points, C235_law. The simulation is a function of the kriging result, the design (through the normalisation) and the draws, the same in both classes (_computePODSamplePerDefect). Runs in which the validation falls below 0.95 raise (C121)."
  },
  {
   "property": "C236",
   "status": "proved",
   "theorems": [
    "Verif.Props.C236_chaos"
   ],
   "note": "C236_chaos. The law of the coefficients is a parameter. The values are multiples of 1/n, so the limit differs from the quantile of the exact conditional probabilities unless the sampling size grows too (C150)."
  },
  {
   "property": "C237",
   "status": "proved",
   "theorems": [
    "Verif.Props.C237_sobol",
    "Verif.Props.C237_kriging",
    "Verif.Props.C237_chaos",
    "Verif.Props.C237_pli",
    "Verif.Props.C237_deltas"
   ],
   "note": "C237_sobol (any aggregated POD function, kept sizes), C237_kriging, C237_chaos (residual of each design point moved with it), C237_pli, C237_deltas. The value by which OpenTURNS centres the outputs is the same parameter on both sides (a mean over the design)."
  },
  {
   "property": "C238",
   "status": "proved",
   "theorems": [
    "Verif.Props.C238_line",
    "Verif.Props.C238_leverage",
    "Verif.Props.C238_gauss",
    "Verif.Props.C238_detected",
    "Verif.Props.C238_detection",
    "Verif.Props.C238_binomial"
   ],
   "note": "C238_line, C238_leverage (any signal of the new observation), C238_gauss (strict), C238_detected, C238_detection (any solver meeting the recorded contract), C238_binomial. Without Box-Cox and without censoring."
  },
  {
   "property": "C239",
   "status": "proved",
   "theorems": [
    "Verif.Props.C239_kriging",
    "Verif.Props.C239_exists"
   ],
   "note": "C239_kriging, C239_exists. The final draws of the mixture are pairs (trajectory, normal deviate), pairwise independent; mixtureDraws_exist gives such draws. The deviate of a trajectory is common to all points, as in the code (C84)."
  },
  {
   "property": "C240",
   "status": "proved",
   "theorems": [
    "Verif.Props.C240_curve",
    "Verif.Props.C240_size"
   ],
   "note": "C240_curve, C240_size. The draws are described by their laws only (SimDraws: normal coefficients with the covariance of the model, chi-squared deviates), without independence between simulations; simDraws_exist gives such draws."
  },
  {
   "property": "C241",
   "status": "partial",
   "theorems": [
    "Verif.Props.C241_violated",
    "Verif.Props.C241_completed_partial",
    "Verif.Props.C241_first_partial"
   ],
   "note": "Violated: C241_violated: when a resample cannot be solved, run() raises but getPODCLModel returns a curve for each level below the share of the resamples not treated; the missing sizes are zeros and the curve gives all defects the highest probability level. Proved: C241_completed_partial (a run that succeeded: all resamples are used; no resample: exception), C241_first_partial (a first run that fails on the data itself: exception)."
  },
  {
   "property": "C242",
   "status": "proved",
   "theorems": [
    "Verif.Props.C242_chaos"
   ],
   "note": "C242_chaos. varEpsilon and coefsRandom are Model/ChaosFit (chaosVarEpsilon, chaosCoefsRandom). The simulated coefficients are described by their laws only (ChaosSimDraws: normal vectors with covariance the inverse Gram matrix, one chi value per run), without independence between them; chaosSimDraws_exist gives such draws."
  },
  {
   "property": "C243",
   "status": "partial",
   "theorems": [
    "Verif.Props.C243_violated",
    "Verif.Props.C243_near_partial"
   ],
   "note": "Violated. C243_violated: all simulated PODs use the one fitted residual deviation; for every basis that is bounded under the law of the parameters, every confidence level, every number and law of the simulated coefficients, for all large numbers of observations and all low enough thresholds, the curve is above the true POD with a probability larger than any p < 1/2 (instead of at most 1-c). Proved: C243_near_partial (the excess over the true POD tends to 0 when the number of observations grows)."
  },
  {
   "property": "C244",
   "status": "proved",
   "theorems": [
    "Verif.Props.C244_sizes"
   ],
   "note": "C244_sizes; draws of the coefficients as in C242; the solver of the detection size through SolveSpec; fineSizes_exist shows that fine lists exist"
  },
  {
   "property": "C245",
   "status": "proved",
   "theorems": [
    "Verif.Props.C245_run",
    "Verif.Props.C245_size"
   ],
   "note": "C245_run, C245_size; contracts: the Box-Cox optimiser does not look at the order (BoxCoxOrderFree), statsmodels returns a best line and its pseudo R2"
  },
  {
   "property": "C246",
   "status": "proved",
   "theorems": [
    "Verif.Props.C246_sizes"
   ],
   "note": "C246_sizes; built on C180 (curves at the requested sizes), the interpolation and SolveSpec; absolute exponential covariance and affine trend as in C180"
  },
  {
   "property": "C247",
   "status": "partial",
   "theorems": [
    "Verif.Props.C247_violated",
    "Verif.Props.C247_below_partial"
   ],
   "note": "Violated. C247_violated: the curve is a quantile over the parameters, not of the estimate; if at a size less than a share 1-c of the parameters has a probability of at most some v above the true POD, the curve is almost surely above the true POD for all large sampling sizes (the example gives such a case at every level). Proved: C247_below_partial (below the true POD when more than a share 1-c has a probability of at most some v below it; in all cases c times the curve is asymptotically at most the true POD). Missing: the factor c."
  },
  {
   "property": "C248",
   "status": "proved",
   "theorems": [
    "Verif.Props.C248_mean",
    "Verif.Props.C248_variance"
   ],
   "note": "C248_mean, C248_variance. External: fsolve returns a root when there is one (unique, C61), NLopt a minimum of H over the box [-1000,1000]^2; boxMin_unique shows that this minimum is unique (strict convexity), and the box is symmetric, so no hypothesis that the variance is reached is needed."
  },
  {
   "property": "C249",
   "status": "partial",
   "theorems": [
    "Verif.Props.C249_chaos_partial",
    "Verif.Props.C249_signal_partial",
    "Verif.Props.C249_violated",
    "Verif.Props.C249_violated_index"
   ],
   "note": "violated. C249_violated: with one size and positive variances the kriging value is kept exactly when the two raw points have the same standardised distance to the threshold; sobol_result_units: the kriging result itself is the same function in both systems; C249_violated_index: moving only the origin of the second parameter raises Jansen's total index of the first above 2/3. True parts: C249_chaos_partial (the whole claim for a chaos POD with the least squares coefficients; an origin of the signals needs the constant in the basis), C249_signal_partial (kriging, unit of the signals, exceptions and NaN included)."
  },
  {
   "property": "C250",
   "status": "proved",
   "theorems": [
    "Verif.Props.C250_estimates",
    "Verif.Props.C250_run",
    "Verif.Props.C250_chaos",
    "Verif.Props.C250_kriging"
   ],
   "note": "C250_estimates (the four methods), C250_run (kept sizes), C250_chaos (output design of the fitted chaos, opposite signals and draws), C250_kriging (aggregated kriging function, krigMean_neg for the kriging mean of the opposite signals). The value by which OpenTURNS centres the outputs is a mean of them, hence g becomes 1 - g."
  },
  {
   "property": "C251",
   "status": "proved",
   "theorems": [
    "Verif.Props.C251_kriging",
    "Verif.Props.C251_chaos"
   ],
   "note": "C251_kriging, C251_chaos. quantile_mirror: the empirical quantile of OpenTURNS (rank q N - 1/2, linear in between, clamped) is symmetric. The covariance is the same in both runs of the kriging: amplitude_mirror for the estimated amplitude, the lengths maximise the same likelihood. The laws of the draws are symmetric, so the opposite draws are as likely."
  },
  {
   "property": "C252",
   "status": "partial",
   "theorems": [
    "Verif.Props.C252_sizes_partial",
    "Verif.Props.C252_curve_partial",
    "Verif.Props.C252_violated"
   ],
   "note": "Violated: C252_violated. The run adds the points (0, 0) and (largest defect, largest quantile) to the solved points, whatever the direction of the signals. Both curves are 0 at size 0, and at the largest defect they add up to 1 only if there is one quantile. So for signals that fall with the defect size the POD curve is 0 at size 0, where the probability to exceed the threshold is the largest. True: C252_sizes_partial, the detection sizes agree and raise together; C252_curve_partial, the curves are complementary between the smallest and the largest solved size."
  },
  {
   "property": "C253",
   "status": "partial",
   "theorems": [
    "Verif.Props.C253_curve_partial",
    "Verif.Props.C253_confidence_partial",
    "Verif.Props.C253_violated"
   ],
   "note": "Violated: C253_violated. On the observations (0, 0), (2, 1), (3, 2), (4, 3) with the quantiles 0.5 and 0.9 every two thresholds between 2 and 8/3 give a size where the larger threshold has the larger POD: the exact regression lines cross inside the data and the solved sizes come in the opposite order. True: C253_curve_partial, when in both runs the solved sizes do not decrease with the quantile (ties included); C253_confidence_partial, the same for the confidence curves when each bootstrap size of the larger threshold is not smaller."
  },
  {
   "property": "C254",
   "status": "partial",
   "theorems": [
    "Verif.Props.C254_correction_partial",
    "Verif.Props.C254_initial_partial",
    "Verif.Props.C254_violated"
   ],
   "note": "Violated: C254_violated. The batch takes the ranks 0, int(n/4), int(n/2), int(3n/4) and n-1 of the sorted probabilities, which are not symmetric. For every number n = 4 m (m at least 2) of candidates in the window, in the order of their probabilities, the candidate number m is evaluated in one run and not in the other, although the classifier of the exchanged study is the exact complement. True: C254_initial_partial, when no point is added; C254_correction_partial, the correction by the averaged confusion matrices is symmetric for any number of classifiers (no probability on the design exactly one half, both predictions occurring), including the NaN case p11 = p10."
  },
  {
   "property": "C255",
   "status": "proved",
   "theorems": [
    "Verif.Props.C255_tests",
    "Verif.Props.C255_r2"
   ],
   "note": "C255_tests (same seven p-values), C255_r2 (any R2 in [0,1) with the same p-values). The normality tests enter through the contract EvenTests (scale-free, even), which is met by statistics of Kolmogorov and Cramer-von Mises (statEnv_even)."
  },
  {
   "property": "C256",
   "status": "partial",
   "theorems": [
    "Verif.Props.C256_mean_one_partial",
    "Verif.Props.C256_violated",
    "Verif.Props.C256_limit_partial"
   ],
   "note": "Violated: C256_violated. The perturbed probability is the mean of the density ratios over the points in the event, not divided by the mean of all the ratios; so the perturbed probabilities of the event and of its complement do not sum to one. For a Normal input, every history of simulations on the side of delta of the midpoint (mu+delta)/2 gives two positive indices. True: C256_mean_one_partial, when the density ratios of the simulations have mean one; C256_limit_partial, almost surely from some number of simulations on, when the perturbation changes the probability."
  },
  {
   "property": "C257",
   "status": "proved",
   "theorems": [
    "Verif.Props.C257_correlation",
    "Verif.Props.C257_exchange",
    "Verif.Props.C257_slopes"
   ],
   "note": "C257_correlation (value), C257_exchange (exchange of defects and signals), C257_slopes (product of the two slopes)."
  },
  {
   "property": "C258",
   "status": "partial",
   "theorems": [
    "Verif.Props.C258_violated",
    "Verif.Props.C258_second_partial",
    "Verif.Props.C258_monotone_partial"
   ],
   "note": "Violated: C258_violated. The test is one-sided: when the residuals of the first half are multiplied by a large factor the p-value is exactly 1 (whatever the residuals and the simulated samples that are not zero on the second half), so a variance that falls along the data is never reported. True: C258_second_partial, with a large factor on the second half the p-value is exactly 0; C258_monotone_partial, the p-value does not increase with the factor of the second half and does not decrease with that of the first half."
  },
  {
   "property": "C259",
   "status": "partial",
   "theorems": [
    "Verif.Props.C259_backwards_partial",
    "Verif.Props.C259_violated"
   ],
   "note": "Violated: C259_violated. The Harrison-McCabe test compares the first half of the file with the whole: at every design of at least six observations there are signals whose p-value is 1 in one direction and 0 in the other. True: C259_backwards_partial, everything else is the same, including the Durbin-Watson test, whose exact mean and variance (traces with the band matrix of second differences) are symmetric, and including the errors. The contract OrderlessTests is met by statistics of Kolmogorov and Cramer-von Mises (statEnv_orderless)."
  },
  {
   "property": "C260",
   "status": "proved",
   "theorems": [
    "Verif.Props.C260_threshold",
    "Verif.Props.C260_ends"
   ],
   "note": "C260_threshold (monotone), C260_ends (values at both ends)."
  }
 ]
}