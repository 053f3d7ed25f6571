import Verif.Model.LinearRun
import Verif.Model.QuantileReg

/-!
# Figures of the fitted models

/repo/otpod/_univariate_linear_model_analysis.py 608-710, _quantile_regression_pod.py 402-443, _polynomial_chaos_pod.py 356-404.
Kept: the points, the vertices joined by the red line (in the order given to `ax.plot`), the label of the ordinate and the title.
-/

namespace Verif.Model
open Verif.Py

/-- A figure: points `"b."`, vertices of the line `"r-"`. -/
structure FitFigure where
  data : List (ℝ × ℝ)
  line : List (ℝ × ℝ)
  ylabel : String
  title : String

/-- What `ax.plot(xs, ys, "r-")` paints: the segments between consecutive vertices. -/
def painted : List (ℝ × ℝ) → Set (ℝ × ℝ)
  | [] => ∅
  | [p] => {p}
  | p :: q :: r => segment ℝ p q ∪ painted (q :: r)

/-- Fitted values of a line on the observations (`fittedvalues`; `CensLinModel(defects)`, lines 277-281). -/
def fittedPoints (b0 b1 : ℝ) (obs : List (ℝ × ℝ)) : List (ℝ × ℝ) := obs.map fun o => (o.1, b0 + b1 * o.1)

/-- `UnivariateLinearModelAnalysis.drawLinearModel`, lines 608-660; `an.obs` is `_algoLinear.model.exog[:, 1]` with `endog`. -/
def drawLinearFig (an : AnalysisFit) (model : String) : Res FitFigure :=
  if model = "censored" ∧ an.cens.isNone then .error ⟨.nameError, "Linear model for censored data is not available."⟩
  else if model = "uncensored" then
    .ok ⟨an.obs, fittedPoints an.unc.intercept an.unc.slope an.obs, "Signals", "Linear regression model"⟩
  else if model = "censored" then
    match an.cens with
    | some c => .ok ⟨an.obs, fittedPoints c.intercept c.slope an.obs, "Box Cox (signals)", "Linear regression model for censored data"⟩
    | none => .error ⟨.attributeError, "_resultsCens"⟩
  else .error ⟨.nameError, "model can be 'uncensored' or 'censored'."⟩

/-- `UnivariateLinearModelAnalysis.drawResiduals`, lines 662-710; the dashed line is the ordinate 0 (the vertices are its ends, in the order of
the data here, which paints the same line). -/
def drawResidualFig (an : AnalysisFit) (model : String) : Res FitFigure :=
  if model = "censored" ∧ an.cens.isNone then .error ⟨.nameError, "Residuals for censored data is not available."⟩
  else if model = "uncensored" then
    .ok ⟨(an.obs.map Prod.fst).zip an.unc.residuals, fittedPoints 0 0 an.obs, "Residuals dispersion", "Residuals"⟩
  else if model = "censored" then
    match an.cens with
    | some c => .ok ⟨(an.obs.map Prod.fst).zip c.residuals, fittedPoints 0 0 an.obs, "Residuals dispersion", "Residuals for censored data"⟩
    | none => .error ⟨.attributeError, "_resultsCens"⟩
  else .error ⟨.nameError, "model can be 'uncensored' or 'censored'."⟩

/-- `QuantileRegressionPOD.drawLinearModel`, lines 402-443.  `fit`: `_algoQuantReg.fit(level)` with its default tolerances (line 422); the level
in the title is left out. -/
def drawQuantileFig (fit : ℝ → QuantFit) (obs : List (ℝ × ℝ)) (p : ℝ) : FitFigure :=
  ⟨obs, fittedPoints (fit (1 - p)).intercept (fit (1 - p)).slope obs, "Signals", "Quantile regression model at level (1 - p)"⟩

/-- `PolynomialChaosPOD.drawPolynomialChaosModel`, lines 356-404: the model on the sorted defects. -/
noncomputable def drawChaosFig (dim : ℕ) (pred : ℝ → ℝ) (obs : List (ℝ × ℝ)) : Res FitFigure :=
  if dim ≠ 1 then .error ⟨.exception, "drawPolynomialChaosModel is available only if the input sample dimension is 1."⟩
  else .ok ⟨obs, ((obs.map Prod.fst).mergeSort (fun a b => decide (a ≤ b))).map fun x => (x, pred x), "Signals", "Polynomial chaos model versus data"⟩

end Verif.Model
