import Verif.Py.Basic
import Verif.Py.Float
import Verif.Py.Round

/-!
# Results of `UnivariateLinearModelAnalysis`

Model of the tables, warnings, accessors and graph selection of /repo/otpod/_univariate_linear_model_analysis.py
(lines 390-1158).  The results themselves are values of the model.
-/

namespace Verif.Model
open Verif.Py

/-- The dictionary `testResults`, lines 311-341. -/
structure TestResults where
  R2 : F ℝ
  andersonDarling : F ℝ
  cramerVonMises : F ℝ
  zeroMean : F ℝ
  kolmogorov : F ℝ
  breuschPagan : F ℝ
  harrisonMcCabe : F ℝ
  durbinWatson : F ℝ

/-- `testResults.values()`. -/
def TestResults.values (t : TestResults) : List (F ℝ) :=
  [t.R2, t.andersonDarling, t.cramerVonMises, t.zeroMean, t.kolmogorov, t.breuschPagan, t.harrisonMcCabe, t.durbinWatson]

/-- The attributes of a `_Results` instance used here. `resDist`: text of the fitted distribution; `resDistClass`: its class
name; `residuals`: the residual sample. -/
structure Results where
  intercept : F ℝ
  slope : F ℝ
  stderr : F ℝ
  confInt0 : String
  confInt1 : String
  resDist : String
  resDistClass : String
  residuals : List ℝ
  tests : TestResults

/-- The analysis object: `cens = none` iff `_censored` is false (lines 128-137); `boxCox = some lambda` iff it is enabled. -/
structure Analysis where
  unc : Results
  cens : Option Results
  boxCox : Option ℝ

/-- A cell of the printed tables. -/
inductive Cell
  | txt (s : String)
  | num (x : F ℝ)

/-- `round(x, 2)` of a float: NaN and infinities are returned unchanged. -/
noncomputable def round2F : F ℝ → F ℝ
  | .fin x => .fin (pyRound2 x)
  | x => x

/-- A rounded number in a cell. -/
noncomputable def rnd (x : F ℝ) : Cell := .num (round2F x)

/-- A row: label, first and second column. -/
abbrev Row := String × Cell × Cell

/-- `data[i][2] = c`. -/
def setCell2 (t : List Row) (i : ℕ) (c : Cell) : List Row := t.modify i fun r => (r.1, r.2.1, c)

/-- The first part of `_buildPrintResults`, lines 494-525: `_dataRegression` without the censored results. -/
noncomputable def regressionUnc (a : Analysis) : List Row :=
  [("Box Cox parameter :", match a.boxCox with
      | some l => .num (.fin (pyRound2 l))
      | none => .txt "Not enabled", .txt ""),
   ("", .txt "", .txt ""),
   ("", .txt "Uncensored", .txt ""),
   ("", .txt "", .txt ""),
   ("Intercept coefficient :", rnd a.unc.intercept, .txt ""),
   ("Slope coefficient :", rnd a.unc.slope, .txt ""),
   ("Standard error of the estimate :", rnd a.unc.stderr, .txt ""),
   ("", .txt "", .txt ""),
   ("Confidence interval on coefficients", .txt "", .txt ""),
   ("Intercept coefficient :", .txt a.unc.confInt0, .txt ""),
   ("Slope coefficient :", .txt a.unc.confInt1, .txt ""),
   ("Level :", .num (.fin (95 / 100)), .txt ""),
   ("", .txt "", .txt ""),
   ("Quality of regression", .txt "", .txt ""),
   ("R2 (> 0.8):", rnd a.unc.tests.R2, .txt "")]

/-- Lines 527-577: `_dataResiduals` without the censored results. -/
noncomputable def residualsUnc (a : Analysis) : List Row :=
  [("Fitted distribution (uncensored) :", .txt a.unc.resDist, .txt ""),
   ("", .txt "", .txt ""),
   ("", .txt "Uncensored", .txt ""),
   ("Distribution fitting test", .txt "", .txt ""),
   ("Kolmogorov p-value (> 0.05):", rnd a.unc.tests.kolmogorov, .txt ""),
   ("", .txt "", .txt ""),
   ("Normality test", .txt "", .txt ""),
   ("Anderson Darling p-value (> 0.05):", rnd a.unc.tests.andersonDarling, .txt ""),
   ("Cramer Von Mises p-value (> 0.05):", rnd a.unc.tests.cramerVonMises, .txt ""),
   ("", .txt "", .txt ""),
   ("Zero residual mean test", .txt "", .txt ""),
   ("p-value (> 0.05):", rnd a.unc.tests.zeroMean, .txt ""),
   ("", .txt "", .txt ""),
   ("Homoskedasticity test (constant variance)", .txt "", .txt ""),
   ("Breush Pagan p-value (> 0.05):", rnd a.unc.tests.breuschPagan, .txt ""),
   ("Harrison McCabe p-value (> 0.05):", rnd a.unc.tests.harrisonMcCabe, .txt ""),
   ("", .txt "", .txt ""),
   ("Non autocorrelation test", .txt "", .txt ""),
   ("Durbin Watson p-value (> 0.05):", rnd a.unc.tests.durbinWatson, .txt "")]

/-- `_buildPrintResults`, lines 477-602: `_dataRegression`. -/
noncomputable def dataRegression (a : Analysis) : List Row :=
  match a.cens with
  | none => regressionUnc a
  | some c =>
    let t := regressionUnc a
    let t := setCell2 t 2 (.txt "Censored")
    let t := setCell2 t 4 (rnd c.intercept)
    let t := setCell2 t 5 (rnd c.slope)
    let t := setCell2 t 6 (rnd c.stderr)
    setCell2 t 14 (rnd c.tests.R2)

/-- `_buildPrintResults`, lines 477-602: `_dataResiduals`; one row is inserted at position 1 before the cells are set. -/
noncomputable def dataResiduals (a : Analysis) : List Row :=
  match a.cens with
  | none => residualsUnc a
  | some c =>
    let t := (residualsUnc a).insertIdx 1 ("Fitted distribution (censored) :", .txt c.resDist, .txt "")
    let t := setCell2 t 3 (.txt "Censored")
    let t := setCell2 t 5 (rnd c.tests.kolmogorov)
    let t := setCell2 t 8 (rnd c.tests.andersonDarling)
    let t := setCell2 t 9 (rnd c.tests.cramerVonMises)
    let t := setCell2 t 12 (rnd c.tests.zeroMean)
    let t := setCell2 t 15 (rnd c.tests.breuschPagan)
    let t := setCell2 t 16 (rnd c.tests.harrisonMcCabe)
    setCell2 t 19 (rnd c.tests.durbinWatson)

/-! ## Warnings -/

/-- The messages of `_printWarnings`, lines 390-432. -/
structure Warnings where
  useBoxCox : Bool
  useOther : Bool
  notNormal : Bool
  deriving DecidableEq

/-- `_printWarnings`, lines 390-432. -/
noncomputable def printWarnings (a : Analysis) : Warnings :=
  let low := fun (t : TestResults) => t.values.any fun v => F.lt v (.fin (5 / 100))
  let testPValues := match a.cens with
    | some c => low a.unc.tests || low c.tests
    | none => low a.unc.tests
  { useBoxCox := testPValues && !a.boxCox.isSome
    useOther := testPValues && a.boxCox.isSome
    notNormal := a.unc.resDistClass != "Normal" }

/-! ## Accessors and graphs -/

/-- `testResults[key]`, a dictionary filled at lines 311-341; an unknown key raises. -/
def TestResults.get (t : TestResults) (key : String) : Res (F ℝ) :=
  if key = "R2" then .ok t.R2
  else if key = "AndersonDarling" then .ok t.andersonDarling
  else if key = "CramerVonMises" then .ok t.cramerVonMises
  else if key = "ZeroMean" then .ok t.zeroMean
  else if key = "Kolmogorov" then .ok t.kolmogorov
  else if key = "BreuschPagan" then .ok t.breuschPagan
  else if key = "HarrisonMcCabe" then .ok t.harrisonMcCabe
  else if key = "DurbinWatson" then .ok t.durbinWatson
  else .error ⟨.indexError, key⟩

/-- `_getResultValue`, lines 1126-1158. -/
def getResultValue (test description : String) (a : Analysis) : Res (List (String × F ℝ)) :=
  match a.cens with
  | some c =>
    match a.unc.tests.get test with
    | .error e => .error e
    | .ok u =>
      match c.tests.get test with
      | .error e => .error e
      | .ok v => .ok [(description ++ " for uncensored case", u), (description ++ " for censored case", v)]
  | none =>
    match a.unc.tests.get test with
    | .error e => .error e
    | .ok u => .ok [(description ++ " for uncensored case", u)]

/-- The accessors returning a `PointWithDescription`, lines 926-1125. -/
inductive Accessor
  | getIntercept | getSlope | getStandardError | getR2 | getAndersonDarlingPValue | getCramerVonMisesPValue
  | getKolmogorovPValue | getZeroMeanPValue | getBreuschPaganPValue | getHarrisonMcCabePValue | getDurbinWatsonPValue
  deriving DecidableEq

/-- Call of an accessor, lines 926-1125. -/
def callAccessor (a : Analysis) : Accessor → Res (List (String × F ℝ))
  | .getIntercept => match a.cens with
    | some c => .ok [("Intercept for uncensored case", a.unc.intercept), ("Intercept for censored case", c.intercept)]
    | none => .ok [("Intercept for uncensored case", a.unc.intercept)]
  | .getSlope => match a.cens with
    | some c => .ok [("Slope for uncensored case", a.unc.slope), ("Slope for censored case", c.slope)]
    | none => .ok [("Slope for uncensored case", a.unc.slope)]
  | .getStandardError => match a.cens with
    | some c => .ok [("Stderr for uncensored case", a.unc.stderr), ("Stderr for censored case", c.stderr)]
    | none => .ok [("Stderr for uncensored case", a.unc.stderr)]
  | .getR2 => getResultValue "R2" "R2" a
  | .getAndersonDarlingPValue => getResultValue "AndersonDarling" "Anderson Darling p-value" a
  | .getCramerVonMisesPValue => getResultValue "CramerVonMises" "Cramer Von Mises p-value" a
  | .getKolmogorovPValue => getResultValue "Kolmogorov" "Kolmogorov p-value" a
  | .getZeroMeanPValue => getResultValue "ZeroMean" "Zero Mean p-value" a
  | .getBreuschPaganPValue => getResultValue "BreuschPagan" "Breusch Pagan p-value" a
  | .getHarrisonMcCabePValue => getResultValue "HarrisonMcCabe" "Harrison McCabe p-value" a
  | .getDurbinWatsonPValue => getResultValue "DurbinWatson" "Durbin Watson p-value" a

/-- `getResidualsDistribution`, lines 939-952. -/
def getResidualsDistribution (a : Analysis) : List String :=
  let d := [a.unc.resDist]
  match a.cens with
  | some c => d ++ [c.resDist]
  | none => d

/-- `getResiduals`, lines 915-937, by columns; assigning a column of another length raises. -/
def getResiduals (a : Analysis) : Res (List (List ℝ)) :=
  match a.cens with
  | some c =>
    if c.residuals.length = a.unc.residuals.length then .ok [a.unc.residuals, c.residuals]
    else .error ⟨.typeError, "size mismatch"⟩
  | none => .ok [a.unc.residuals]

/-- The selection made by the graphs `drawLinearModel` (608), `drawResiduals` (662), `drawResidualsQQplot` (712),
`drawResidualsDistribution` (772): the results that are plotted. -/
def drawSelect (a : Analysis) (model : String) : Res Results :=
  if model = "censored" ∧ a.cens.isNone then .error ⟨.nameError, "for censored data is not available."⟩
  else if model = "uncensored" then .ok a.unc
  else if model = "censored" then
    match a.cens with
    | some c => .ok c
    | none => .error ⟨.attributeError, ""⟩
  else .error ⟨.nameError, "model can be 'uncensored' or 'censored'."⟩

end Verif.Model
