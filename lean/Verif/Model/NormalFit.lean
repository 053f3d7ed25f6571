import Verif.Model.Tests

/-!
# The fitted normal law of the residuals — /repo/otpod/_univariate_linear_model_analysis.py 274-279, 318-330
-/

namespace Verif.Model
open Verif.Py

/-- `self._resDistFact.build(residuals).computeCDF` for the default factory `ot.NormalFactory()` (_univariate_linear_model_analysis.py 278, 289-291): the
normal law with the mean and the (unbiased) standard deviation of the residuals.  OpenTURNS refuses a sample with a null standard deviation; here the
function then has no meaning. -/
noncomputable def normalFitCdf {n : ℕ} (r : Fin n → ℝ) (t : ℝ) : ℝ := Phi ((t - smean r) / Real.sqrt (svar r))

/-- The tests of the linear model of an analysis without thresholds and Box-Cox (_univariate_linear_model_analysis.py 243-247, 274-279, 295-297). -/
noncomputable def analysisTests {m : ℕ} (env : TestEnv (m + 2)) (defects signals : Fin (m + 2) → ℝ) : Res TestResults :=
  computeTests env defects signals (olsResiduals defects signals) (normalFitCdf (olsResiduals defects signals))

end Verif.Model
