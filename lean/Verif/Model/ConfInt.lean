import Verif.Model.ResidualVar
import Verif.Model.LinearRun

/-!
# Confidence intervals of the coefficients — /repo/otpod/_univariate_linear_model_analysis.py 243-252
-/

namespace Verif.Model
open Verif.Py

/-- `self._algoLinear.conf_int(alpha)[0]` (_univariate_linear_model_analysis.py 252): statsmodels returns the estimate minus and plus the quantile of
order `1 - alpha / 2` of the Student law with `n - 2` degrees of freedom (`q`) times the standard error of the estimate, the root of
`scale` times the diagonal of the inverse of `X'X`; `X` has a column of ones and the defects (243-247), so that the entry of the intercept is
`1/n + mean² / S`. -/
noncomputable def confIntIntercept {n : ℕ} (q : ℕ → ℝ → ℝ) (alpha : ℝ) (x y : Fin n → ℝ) : ℝ × ℝ :=
  let bse := linearStderr x y * Real.sqrt (1 / n + smean x ^ 2 / ∑ i, (x i - smean x) ^ 2)
  (olsIntercept x y - q (n - 2) (1 - alpha / 2) * bse, olsIntercept x y + q (n - 2) (1 - alpha / 2) * bse)

/-- `self._algoLinear.conf_int(alpha)[1]` (_univariate_linear_model_analysis.py 252): the entry of the slope is `1 / S`. -/
noncomputable def confIntSlope {n : ℕ} (q : ℕ → ℝ → ℝ) (alpha : ℝ) (x y : Fin n → ℝ) : ℝ × ℝ :=
  let bse := linearStderr x y * Real.sqrt (1 / ∑ i, (x i - smean x) ^ 2)
  (olsSlope x y - q (n - 2) (1 - alpha / 2) * bse, olsSlope x y + q (n - 2) (1 - alpha / 2) * bse)

/-- The two intervals of the analysis, at the level 0.05 (_univariate_linear_model_analysis.py 252), displayed with the level 0.95 (513-519). -/
noncomputable def analysisConfInt {n : ℕ} (q : ℕ → ℝ → ℝ) (x y : Fin n → ℝ) : (ℝ × ℝ) × (ℝ × ℝ) :=
  (confIntIntercept q (5 / 100) x y, confIntSlope q (5 / 100) x y)

/-- The same for the list of the defects and signals given to the fit. -/
noncomputable def fitConfInt (q : ℕ → ℝ → ℝ) (unc : List (ℝ × ℝ)) : (ℝ × ℝ) × (ℝ × ℝ) :=
  analysisConfInt q (fun i : Fin unc.length => (unc.get i).1) (fun i => (unc.get i).2)

/-- `self._resultsUnc.confInt` after `_run` (_univariate_linear_model_analysis.py 176-252): the observations of the fit are those between the thresholds,
transformed by Box-Cox if asked. -/
noncomputable def analysisConfIntRun (q : ℕ → ℝ → ℝ) (fmax : ℝ) (env : LinEnv) (draws : ℕ → ℝ × ℝ × ℝ) (obs : List (ℝ × ℝ)) (noise sat : Option ℝ)
    (boxCox : Bool) (userLambda : Option ℝ) : Res ((ℝ × ℝ) × (ℝ × ℝ)) :=
  match analysisRun fmax env draws obs noise sat boxCox userLambda with
  | .error e => .error e
  | .ok an => .ok (fitConfInt q an.obs)

end Verif.Model
