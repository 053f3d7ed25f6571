import Verif.Model.LinearPOD
import Verif.Model.Loo

/-!
# Residual variance of the linear and chaos models, and the POD curves of a data set

/repo/otpod/_univariate_linear_model_pod.py 139-190 and 588-595, /repo/otpod/_polynomial_chaos_pod.py 175-209.
-/

namespace Verif.Model
open Verif.Py Matrix

variable {n p : ℕ}

/-- `algoLinear.scale` of statsmodels (line 593): residual sum of squares over `n - 2`. -/
noncomputable def linearScale (x y : Fin n → ℝ) : ℝ := (∑ i, olsResiduals x y i ^ 2) / ((n : ℝ) - 2)

/-- `stderr = np.sqrt(algoLinear.scale)` (line 593). -/
noncomputable def linearStderr (x y : Fin n → ℝ) : ℝ := Real.sqrt (linearScale x y)

/-- The Gaussian POD of a data set without Box-Cox and without censoring (`run` with `NormalFactory`). -/
noncomputable def gaussPodOf (x y : Fin n → ℝ) (detection : ℝ) : ℝ → ℝ :=
  podGauss x (linearStderr x y) detection fun a => olsIntercept x y + olsSlope x y * a

/-- The binomial POD of a data set without Box-Cox and without censoring (`run` without residual factory). -/
noncomputable def binomialPodOf (x y : Fin n → ℝ) (detection : ℝ) : ℝ → ℝ :=
  podBinomial (List.ofFn (olsResiduals x y)) detection fun a => olsIntercept x y + olsSlope x y * a

/-- The binomial confidence curve of a data set. -/
noncomputable def binomialPodClOf (qBeta : ℕ → ℕ → ℝ → ℝ) (x y : Fin n → ℝ) (detection confLevel : ℝ) : ℝ → ℝ :=
  podBinomialCl qBeta (List.ofFn (olsResiduals x y)) detection (fun a => olsIntercept x y + olsSlope x y * a) confLevel

/-- The square of `_stderr` of the chaos model (_polynomial_chaos_pod.py 175-181): residual sum of squares over
`inputSize - basisSize - 1`; `A` is the matrix of the basis functions on the inputs, the coefficients are those of least squares. -/
noncomputable def chaosScale (A : Matrix (Fin n) (Fin p) ℝ) (y : Fin n → ℝ) : ℝ :=
  (∑ i, (y i - (A *ᵥ lsCoefs A y) i) ^ 2) / ((n : ℝ) - p - 1)

/-- Draw number `k` of the coefficients of the Gaussian linear model (_univariate_linear_model_pod.py 437-449): `sigma k` is the
`k`-th draw of the residual standard deviation, `z k` of the centred normal vector with covariance (XᵀX)⁻¹. -/
noncomputable def linearDraw {q : ℕ} (coefs : Fin q → ℝ) (sigma : ℕ → ℝ) (z : ℕ → Fin q → ℝ) (k : ℕ) : Fin q → ℝ :=
  fun j => z k j * sigma k + coefs j

/-- Draw number `k` of the chaos coefficients (_polynomial_chaos_pod.py 197-209): `varEpsilon` is one realisation (line 198-200), the
vectors are drawn from the normal law with covariance (AᵀA)⁻¹ · varEpsilon; `z k` is the corresponding reduced vector. -/
noncomputable def chaosDraw {q : ℕ} (coefs : Fin q → ℝ) (varEpsilon : ℕ → ℝ) (z : ℕ → Fin q → ℝ) (k : ℕ) : Fin q → ℝ :=
  fun j => z k j * Real.sqrt (varEpsilon 0) + coefs j

end Verif.Model
