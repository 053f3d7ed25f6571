import Verif.Model.LinearRun
import Verif.Model.Tests

/-!
# The whole analysis: fits, laws of the residuals, tests — /repo/otpod/_univariate_linear_model_analysis.py 175-302
-/

namespace Verif.Model
open Verif.Py

/-- `self._computeTests(defects, signals, residuals, resDist)` for one fit of the analysis (_univariate_linear_model_analysis.py 295-302): `defects` and
`signals` are those kept by the filter, transformed, for both fits.  A sample with less than two kept observations is refused by the model; what
statsmodels and OpenTURNS do with it is left out. -/
noncomputable def fitTests (tenv : ∀ n, TestEnv n) (obs : List (ℝ × ℝ)) (residuals : List ℝ) (resDist : ℝ → ℝ) : Res TestResults :=
  if obs.length < 2 then .error ⟨.exception, "too few observations (not modelled)"⟩
  else computeTests (m := obs.length - 2) (tenv _) (fun i => (obs.getD i (0, 0)).1) (fun i => (obs.getD i (0, 0)).2)
    (fun i => residuals.getD i 0) resDist

/-- What the analysis knows after `_run`: the fits, the tests of the uncensored fit, those of the censored fit. -/
structure AnalysisOutcome where
  fits : AnalysisFit
  unc : TestResults
  cens : Option TestResults

/-- `UnivariateLinearModelAnalysis._run` (175-302): the fits (176-272), the laws of the residuals (274-291, `fact` is `resDistFact.build` as a cdf, which
may raise), the tests (293-302). -/
noncomputable def analysisFull (fmax : ℝ) (env : LinEnv) (tenv : ∀ n, TestEnv n) (fact : List ℝ → Res (ℝ → ℝ)) (draws : ℕ → ℝ × ℝ × ℝ)
    (obs : List (ℝ × ℝ)) (noise sat : Option ℝ) (boxCox : Bool) (userLambda : Option ℝ) : Res AnalysisOutcome :=
  match analysisRun fmax env draws obs noise sat boxCox userLambda with
  | .error e => .error e
  | .ok an =>
    match fact an.unc.residuals with
    | .error e => .error e
    | .ok d0 =>
      match an.cens with
      | none =>
        match fitTests tenv an.obs an.unc.residuals d0 with
        | .error e => .error e
        | .ok t0 => .ok ⟨an, t0, none⟩
      | some c =>
        match fact c.residuals with
        | .error e => .error e
        | .ok d1 =>
          match fitTests tenv an.obs an.unc.residuals d0 with
          | .error e => .error e
          | .ok t0 =>
            match fitTests tenv an.obs c.residuals d1 with
            | .error e => .error e
            | .ok t1 => .ok ⟨an, t0, some t1⟩

end Verif.Model
