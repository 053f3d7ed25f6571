import Verif.Model.Base
import Verif.Py.Sample
import Verif.Py.Interp

/-!
# Quantile regression POD — /repo/otpod/_quantile_regression_pod.py
-/

namespace Verif.Model
open Verif.Py

/-- `np.linspace(a, b, n)` for `n ≥ 2`. -/
noncomputable def linspace (a b : ℝ) (n : ℕ) : List ℝ :=
  (List.range n).map fun (i : ℕ) => a + (i : ℝ) * ((b - a) / ((n : ℝ) - 1))

/-- The default quantiles (line 70). -/
noncomputable def defaultQuantiles : List ℝ := linspace 0.05 0.98 21

/-- `setQuantile` (276-290): the argument is flattened (`np.hstack`, which raises ValueError on an empty sequence), sorted,
checked, then stored.  The state is the attribute `_quantile`.  NaN is outside the model. -/
noncomputable def setQuantile (arg : List ℝ) : Meth (List ℝ) Unit := fun old =>
  if arg = [] then (.error ⟨.valueError, "need at least one array to concatenate"⟩, old)
  else
    let q := sortR arg
    if 1 ≤ q.getD (q.length - 1) 0 ∨ q.getD 0 0 ≤ 0 then
      (.error ⟨.valueError, "Quantile values must range between ]0, 1[."⟩, old)
    else (.ok (), q)

/-- A sequence of calls, each of which may raise (the caller catches). -/
noncomputable def setQuantiles (args : List (List ℝ)) (s : List ℝ) : List ℝ :=
  args.foldl (fun s a => (setQuantile a s).2) s

/-- The interpolation of `run` (147-154) and of `getPODCLModel` (244-249): the support points are (0,0), the
(defect, quantile) pairs and (defectMax, max quantile).  `quantile.max()` is the last of the sorted quantiles. -/
noncomputable def qrCurve (defectList quantiles : List ℝ) (defectMax : ℝ) : Res (ℝ → Res ℝ) :=
  interp1d (0 :: (defectList ++ [defectMax])) (0 :: (quantiles ++ [quantiles.getD (quantiles.length - 1) 0]))

/-- The confidence curve (226-252): per quantile, the quantile of order `confidenceLevel` of the bootstrap defects.
`defectsPerQuantile` is given by columns. -/
noncomputable def qrCurveCl (defectsPerQuantile : List (List ℝ)) (quantiles : List ℝ) (defectMax confidenceLevel : ℝ) :
    Res (ℝ → Res ℝ) :=
  qrCurve (defectsPerQuantile.map fun col => quantile col confidenceLevel) quantiles defectMax

/-- The part of `run` (99-212) that calls `self._run`: once on the data, then once per bootstrap sample (line 175);
every call assigns `_lambdaBoxCox` and `_graphBoxCox`.  The quantile fits and solves in between do not touch these
attributes.  The result is that of the first call, from which the POD curve is built. -/
noncomputable def qrRun {α G : Type} (fmax : ℝ) (bc : List α → List ℝ → ℝ → Res (ℝ × G)) (data : List (α × ℝ))
    (det noise sat : Option ℝ) (boxCox cens : Bool) (bootstrap : List (List (α × ℝ))) :
    Meth (BoxCoxAttrs G) (RunResult α) := fun st =>
  match podRun fmax bc data det noise sat boxCox cens st with
  | (.error e, st1) => (.error e, st1)
  | (.ok r, st1) => go r bootstrap st1
where
  /-- The bootstrap loop. -/
  go (r : RunResult α) : List (List (α × ℝ)) → BoxCoxAttrs G → Res (RunResult α) × BoxCoxAttrs G
    | [], st => (.ok r, st)
    | b :: bs, st =>
      match podRun fmax bc b det noise sat boxCox cens st with
      | (.error e, st1) => (.error e, st1)
      | (.ok _, st1) => go r bs st1

/-- A fitted quantile regression line with its pseudo-R². -/
structure QuantFit where
  intercept : ℝ
  slope : ℝ
  prsquared : ℝ

/-- The fit used for the detection size at probability `p`: `_buildModel(1.0 - p)` (lines 141, 298). -/
def qrFitFor (fit : ℝ → QuantFit) (p : ℝ) : QuantFit := fit (1 - p)

/-- `getR2(quantile)` (254-268): `fit(quantile).prsquared`. -/
def qrGetR2 (fit : ℝ → QuantFit) (q : ℝ) : ℝ := (fit q).prsquared

/-- `ot.Brent().solve(model, value, a, b)` for a line: raises when both ends are strictly on the same side of the
value; otherwise returns a solution, chosen by `pick` when the line is constant. -/
noncomputable def brentLine (pick : ℝ → ℝ → ℝ) (m : QuantFit) (v a b : ℝ) : Res ℝ :=
  if 0 < (m.intercept + m.slope * a - v) * (m.intercept + m.slope * b - v) then .error ⟨.runtime, ""⟩
  else if m.slope = 0 then .ok (pick a b) else .ok ((v - m.intercept) / m.slope)

/-- `computeDetectionSize` (294-332) without confidence level: any exception of the solver becomes `Exception`. -/
noncomputable def qrDetectionSize (pick : ℝ → ℝ → ℝ) (fit : ℝ → QuantFit) (detection defectMin defectMax p : ℝ) : Res ℝ :=
  match brentLine pick (qrFitFor fit p) detection defectMin defectMax with
  | .error _ => .error ⟨.exception, "The POD model does not contain, for the given defect interval, the wanted probability level."⟩
  | .ok d => .ok d

end Verif.Model
