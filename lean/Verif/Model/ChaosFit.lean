import Verif.Model.ChaosRun
import Verif.Model.ResidualVar

/-!
# The chaos model fitted on the data — /repo/otpod/_polynomial_chaos_pod.py 141-216
-/

namespace Verif.Model
open Verif.Py

/-- The matrix of the basis functions on the inputs (175-181, 668-700: the design of the least squares problem). -/
def basisMatrix {Z : Type} {k : ℕ} (φ : Fin k → Z → ℝ) (N : ℕ) (z : ℕ → Z) : Matrix (Fin N) (Fin k) ℝ := fun i j => φ j (z i)

/-- The chaos model of `run` fitted on the first `N` observations (158-195): the coefficients of least squares, `_stderr` the root of the residual
sum of squares over `inputSize - basisSize - 1`, no Box-Cox (the detection level is the given one). -/
noncomputable def fittedChaos {k : ℕ} (zero : ℝ × X) (T : ℝ × X → U) (φ : Fin k → U → ℝ) (det : ℝ) (N : ℕ) (z : ℕ → ℝ × X) (y : ℕ → ℝ) :
    ChaosSetup X U where
  zero := zero
  transformation := T
  basis := List.ofFn φ
  coefs := List.ofFn (lsCoefs (basisMatrix (fun j w => φ j (T w)) N z) fun i => y i)
  stderr := Real.sqrt (chaosScale (basisMatrix (fun j w => φ j (T w)) N z) fun i => y i)
  samplingSize := 0
  detection := det

/-- `varEpsilon` (197-200): one realisation of `ChiSquare(dof).inverse() * dof * stderr**2` with `dof = inputSize - basisSize - 1`; `chi` is the root of the realisation
of `ChiSquare(dof)`. -/
noncomputable def chaosVarEpsilon (N k : ℕ) (stderr chi : ℝ) : ℝ :=
  1 / chi ^ 2 * ((N : ℝ) - k - 1) * stderr ^ 2

/-- `coefsRandom` (196-209): `simulationSize` vectors of coefficients; `z r` is the reduced vector number `r` (covariance the inverse of `gramBasis`). -/
noncomputable def chaosCoefsRandom {N k : ℕ} (A : Matrix (Fin N) (Fin k) ℝ) (y : Fin N → ℝ) (stderr : ℝ) (simulationSize : ℕ) (z : ℕ → Fin k → ℝ) (chi : ℝ) :
    List (List ℝ) :=
  (List.range simulationSize).map fun r => List.ofFn (chaosDraw (lsCoefs A y) (fun _ => chaosVarEpsilon N k stderr chi) z r)

end Verif.Model
