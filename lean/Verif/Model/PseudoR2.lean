import Verif.Model.QrRun

/-!
# The goodness of fit reported by `getR2` of the quantile regression — /repo/otpod/_quantile_regression_pod.py 254-268

`fit(quantile).prsquared` of statsmodels 0.14 (`QuantRegResults.prsquared`): one minus the loss of the fitted line over the loss of the sample percentile
(`scipy.stats.scoreatpercentile`, linear interpolation at the position `q (n - 1)` of the sorted sample).
-/

namespace Verif.Model
open Verif.Py

/-- `stats.scoreatpercentile(ys, 100 q)`. -/
noncomputable def scorePercentile (ys : List ℝ) (q : ℝ) : ℝ := atPos (sortR ys) (q * ((ys.length : ℝ) - 1))

/-- `QuantRegResults.prsquared` of a line (`getR2`, _quantile_regression_pod.py 254-268). -/
noncomputable def pseudoR2 (tau : ℝ) (obs : List (ℝ × ℝ)) (b0 b1 : ℝ) : ℝ :=
  1 - quantLoss tau obs b0 b1 / (obs.map fun o => pinball tau (o.2 - scorePercentile (obs.map Prod.snd) tau)).sum

end Verif.Model
