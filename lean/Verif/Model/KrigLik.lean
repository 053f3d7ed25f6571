import Verif.Model.KrigSim
import Mathlib.Analysis.SpecialFunctions.Log.Basic

/-!
# Estimation of the covariance parameters of the kriging model

`_estimKrigingTheta` (/repo/otpod/_kriging_tools.py 492-535) maximises `fitter.getReducedLogLikelihoodFunction()` over a box of correlation lengths;
the amplitude is the analytical estimate of OpenTURNS.  The search itself is outside the model.
-/

namespace Verif.Model
open Matrix

variable {n p : ℕ}

/-- Analytical estimate of the variance of the process: the generalised residual sum of squares over `n`, for the correlation matrix `R` and the trend matrix
`F` (`yᵀ B y` with the block `B` of the inverse of the bordered matrix is the minimum of `(y - F β)ᵀ R⁻¹ (y - F β)`). -/
noncomputable def krigAmplitude (R : Matrix (Fin n) (Fin n) ℝ) (F : Matrix (Fin n) (Fin p) ℝ) (y : Fin n → ℝ) : ℝ := (y ⬝ᵥ (looB R F *ᵥ y)) / n

/-- The reduced log-likelihood (up to the constants of OpenTURNS) of correlation lengths with correlation matrix `R`. -/
noncomputable def krigReducedLik (R : Matrix (Fin n) (Fin n) ℝ) (F : Matrix (Fin n) (Fin p) ℝ) (y : Fin n → ℝ) : ℝ :=
  -(1 / 2) * (n * Real.log (krigAmplitude R F y) + Real.log R.det)

end Verif.Model
