import Verif.Model.GaussCl
import Verif.Model.CensoredFit

/-!
# The Gaussian linear POD with the divisions of numpy — /repo/otpod/_univariate_linear_model_pod.py

The other models of these functions use real numbers, where a division by zero is not an event.  Here the quotient of lines 410-412 and 428-430 is the one of
numpy: with a residual deviation 0 it is an infinity or NaN.  Sums and products are exact.
-/

namespace Verif.Model
open Verif.Py

/-- `ot.DistFunc.pNormal(t, True)` extended to infinities and NaN. -/
noncomputable def fpNormalC : F ℝ → F ℝ
  | .nan => .nan
  | .ninf => .fin 1
  | .pinf => .fin 0
  | .fin x => .fin (PhiC x)

/-- `_PODgaussModel` (397-416). -/
noncomputable def podGaussF {n : ℕ} (defects : Fin n → ℝ) (stderr detection : ℝ) (linearModel : ℝ → ℝ) (x : ℝ) : F ℝ :=
  fpNormalC (F.div (.fin (detection - linearModel x)) (.fin (Real.sqrt (predictionVariance defects stderr x))))

/-- `buildPODModel.PODmodel` of `_PODgaussModelCl` (427-431) for one draw. -/
noncomputable def gaussCurveF (intercept slope detection z0 z1 sigma x : ℝ) : F ℝ :=
  fpNormalC (F.div (.fin (detection - ((z0 * sigma + intercept) + (z1 * sigma + slope) * x))) (.fin sigma))

/-- The Gaussian POD of a data set without Box-Cox and without censoring (139-211). -/
noncomputable def gaussPodOfF {n : ℕ} (x y : Fin n → ℝ) (detection : ℝ) : ℝ → F ℝ :=
  podGaussF x (linearStderr x y) detection fun a => olsIntercept x y + olsSlope x y * a

/-- The numbers of a list without NaN and infinities. -/
def allFinite : List (F ℝ) → Option (List ℝ)
  | [] => some []
  | .fin x :: l => match allFinite l with
    | some r => some (x :: r)
    | none => none
  | _ :: _ => none

/-- Its confidence curve (246-256): `gaussClOf` with the quotients of numpy.  The quantile of values that are not all numbers is NaN (the order of NaN in the sort
of OpenTURNS is not specified). -/
noncomputable def gaussClOfF {n : ℕ} (x y : Fin n → ℝ) (detection : ℝ) (z : ℕ → Fin 2 → ℝ) (chi : ℕ → ℝ) (simulationSize : ℕ) (confidenceLevel a : ℝ) : Res (F ℝ) :=
  let values := (List.range simulationSize).map fun k =>
    gaussCurveF (olsIntercept x y) (olsSlope x y) detection (z k 0) (z k 1) (sigmaDraw n (linearStderr x y) (chi k)) a
  if values = [] then .error ⟨.runtime, ""⟩
  else
    match allFinite values with
    | some vs => .ok (.fin (quantile vs (1 - confidenceLevel)))
    | none => .ok .nan

end Verif.Model
