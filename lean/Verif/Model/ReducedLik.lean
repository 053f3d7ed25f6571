import Verif.Model.BoxCoxLik

/-!
# The Box-Cox likelihood with an affine trend — /repo/otpod/_math_tools.py 12-48

The class is not used by the PODs (the call in `computeBoxCox` is commented out, 104-108).  The least squares of OpenTURNS are exact.
-/

namespace Verif.Model
open Verif.Py

/-- `ReducedLogLikelihood(a_i, Y_i)(lambda)`: `__init__` (26-35), `_exec` (37-48).  `computeVariance` has the divisor `N - 1`; `math.log` raises ValueError
for a number that is not positive, the division by `N - 2.0` raises for two observations. -/
noncomputable def reducedLogLik {n : ℕ} (x y : Fin n → ℝ) (lam : ℝ) : Res ℝ :=
  let sumLogY := smean (fun i => Real.log (y i)) * n
  let yLambda : Fin n → ℝ := fun i => boxCoxFun lam (y i)
  if n = 2 then .error ⟨.zeroDivision, "float division by zero"⟩
  else
    let sigma2 := ((n : ℝ) - 1) / ((n : ℝ) - 2) * svar (fun i => yLambda i - (x i * olsSlope x yLambda + olsIntercept x yLambda))
    if sigma2 ≤ 0 then .error ⟨.valueError, "math domain error"⟩
    else .ok (-(1 / 2) * n * Real.log sigma2 + (lam - 1) * sumLogY)

end Verif.Model
