import Verif.Model.QrRun

/-!
# `QuantileRegressionPOD.getPODCLModel` after a run — /repo/otpod/_quantile_regression_pod.py 226-252
-/

namespace Verif.Model
open Verif.Py

/-- The columns of the sample `_defectsPerQuantile` given by rows. -/
noncomputable def qrColumns (rows : List (List ℝ)) : List (List ℝ) :=
  (List.range (rows.headD []).length).map fun k => rows.map fun r => r.getD k 0

/-- `getPODCLModel(confidenceLevel)` (226-252): the quantile of an empty sample raises, then the largest defect of the observations used is read. -/
noncomputable def qrGetPODCL {G : Type} (s : QrAttrs G) (quantiles : List ℝ) (c : ℝ) : Res (ℝ → Res ℝ) :=
  match s.rows with
  | none => .error ⟨.attributeError, "_defectsPerQuantile"⟩
  | some rows =>
    if rows = [] then .error ⟨.runtime, "cannot compute the quantile per component of an empty sample."⟩
    else match s.data with
      | none => .error ⟨.attributeError, "_defects"⟩
      | some (obs, _) =>
        match sampleMax (obs.map Prod.fst) with
        | .error e => .error e
        | .ok mx => qrCurveCl (qrColumns rows) quantiles mx c

end Verif.Model
