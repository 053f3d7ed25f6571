import Verif.Py.Basic
import Mathlib.Data.List.Basic

/-!
# Importing the package

/repo/otpod/__init__.py 10-44 and the `__all__` of the modules.
-/

namespace Verif.Model

/-! ## Names -/

/-- The `__all__` of the modules imported in __init__.py 18-29, in this order: _univariate_linear_model_analysis.py 3,
_univariate_linear_model_pod.py 3, _quantile_regression_pod.py 3, _polynomial_chaos_pod.py 3, _kriging_pod.py 3, _adaptive_signal_pod.py 3,
_adaptive_hitmiss_pod.py 3, _pod_summary.py 3, _sobol_indices.py 3, _pli_pod.py 9, _pli.py 3, _math_tools.py 3. -/
def moduleExports : String → List String
  | "_univariate_linear_model_analysis" => ["UnivariateLinearModelAnalysis"]
  | "_univariate_linear_model_pod" => ["UnivariateLinearModelPOD"]
  | "_quantile_regression_pod" => ["QuantileRegressionPOD"]
  | "_polynomial_chaos_pod" => ["PolynomialChaosPOD"]
  | "_kriging_pod" => ["KrigingPOD"]
  | "_adaptive_signal_pod" => ["AdaptiveSignalPOD"]
  | "_adaptive_hitmiss_pod" => ["AdaptiveHitMissPOD"]
  | "_pod_summary" => ["PODSummary"]
  | "_sobol_indices" => ["SobolIndices"]
  | "_pli_pod" => ["PLIMean", "PLIVariance"]
  | "_pli" => ["PLI"]
  | "_math_tools" => ["DataHandling"]
  | _ => []

/-- The modules whose names are imported, 18-29. -/
def importedModules : List String :=
  ["_univariate_linear_model_analysis", "_univariate_linear_model_pod", "_quantile_regression_pod", "_polynomial_chaos_pod", "_kriging_pod",
    "_adaptive_signal_pod", "_adaptive_hitmiss_pod", "_pod_summary", "_sobol_indices", "_pli_pod", "_pli", "_math_tools"]

/-- The modules whose `__all__` are added up, 33-44. -/
def listedModules : List String :=
  ["_univariate_linear_model_analysis", "_univariate_linear_model_pod", "_quantile_regression_pod", "_polynomial_chaos_pod", "_kriging_pod",
    "_adaptive_signal_pod", "_adaptive_hitmiss_pod", "_pod_summary", "_sobol_indices", "_math_tools"]

/-- The public names bound in the package, 18-29: what `import otpod; otpod.name` finds. -/
def packageNames : List String := importedModules.flatMap moduleExports

/-- `__all__`, 33-44: what `from otpod import *` binds. -/
def packageAll : List String := listedModules.flatMap moduleExports

/-! ## Logging -/

/-- `logging.Logger.getEffectiveLevel` of the standard library: the first level that is set (not 0) from the logger up to the root; `chain` is the list of
the levels from the logger to the last logger below the root, `root` the level of the root. -/
def effectiveLevel (root : ℕ) : List ℕ → ℕ
  | [] => root
  | l :: rest => if l = 0 then effectiveLevel root rest else l

/-- A message of the given level passes the logger (`isEnabledFor` with nothing disabled globally). -/
def passes (root : ℕ) (chain : List ℕ) (level : ℕ) : Prop := effectiveLevel root chain ≤ level

/-- `_initializing` (10-13): the level of the root is set to `logging.INFO`, whatever it was. -/
def initializing (_root : ℕ) : ℕ := 20

end Verif.Model
