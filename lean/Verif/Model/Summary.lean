import Verif.Py.Basic
import Verif.Py.Float
import Verif.Py.Round
import Verif.Py.Val
import Verif.Model.Base
import Verif.Model.Analysis

/-!
# `PODSummary`

Model of /repo/otpod/_pod_summary.py.  The six POD objects are values of an abstract type `O`; what their constructors,
`run` methods and results do is a parameter.
-/

namespace Verif.Model
open Verif.Py

/-- The keys of `_activeMethods`, lines 107-114. -/
inductive MethodKey
  | linearGauss | linearBinomial | linearKernelSmoothing | quantileRegression | polynomialChaos | kriging
  deriving DecidableEq, Repr

/-- The dictionary key of a method, lines 107-114. -/
def MethodKey.name : MethodKey → String
  | .linearGauss => "LinearGauss"
  | .linearBinomial => "LinearBinomial"
  | .linearKernelSmoothing => "LinearKernelSmoothing"
  | .quantileRegression => "QuantileRegression"
  | .polynomialChaos => "PolynomialChaos"
  | .kriging => "Kriging"

/-- `method in self._activeMethods`: the key with this name. -/
def MethodKey.ofName (s : String) : Option MethodKey :=
  if s = "LinearGauss" then some .linearGauss
  else if s = "LinearBinomial" then some .linearBinomial
  else if s = "LinearKernelSmoothing" then some .linearKernelSmoothing
  else if s = "QuantileRegression" then some .quantileRegression
  else if s = "PolynomialChaos" then some .polynomialChaos
  else if s = "Kriging" then some .kriging
  else none

/-- Attributes of `PODSummary` (lines 70-114).  `slot k = some (o, b)`: the attribute of method `k` is the object `o`, whose
`run()` completed iff `b`. `analysis` is set by `run` (absent before). -/
structure Summary (O : Type) where
  dim : ℕ
  active : MethodKey → Bool
  slot : MethodKey → Option (O × Bool)
  analysis : Option Analysis

/-- `PODSummary.__init__`, lines 70-114. -/
def summaryInit (O : Type) (dim : ℕ) : Summary O :=
  { dim := dim, active := fun _ => true, slot := fun _ => none, analysis := none }

/-- What happens in one call of `run`: the outcome of the analysis, of each constructor and of each `run` method. -/
structure SumEnv (O : Type) where
  analysis : Res Analysis
  make : MethodKey → Res O
  exec : MethodKey → Res Unit

/-- `if cond: self._PODx = Class(...); ...; self._PODx.run()`, one block of lines 134-235. -/
def runBlock {O : Type} (e : SumEnv O) (k : MethodKey) (cond : Bool) (s : Summary O) : Res Unit × Summary O :=
  if cond then
    match e.make k with
    | .error err => (.error err, s)
    | .ok o =>
      match e.exec k with
      | .error err => (.error err, { s with slot := Function.update s.slot k (some (o, false)) })
      | .ok () => (.ok (), { s with slot := Function.update s.slot k (some (o, true)) })
  else (.ok (), s)

/-- `run`, lines 116-235. -/
def summaryRun {O : Type} (e : SumEnv O) : Meth (Summary O) Unit := fun s =>
  match e.analysis with
  | .error err => (.error err, s)
  | .ok an =>
    let s := { s with analysis := some an }
    match runBlock e .linearGauss (s.active .linearGauss) s with
    | (.error err, s) => (.error err, s)
    | (.ok (), s) =>
      match runBlock e .linearBinomial (s.active .linearBinomial) s with
      | (.error err, s) => (.error err, s)
      | (.ok (), s) =>
        match runBlock e .linearKernelSmoothing (s.active .linearKernelSmoothing) s with
        | (.error err, s) => (.error err, s)
        | (.ok (), s) =>
          match runBlock e .quantileRegression (s.active .quantileRegression) s with
          | (.error err, s) => (.error err, s)
          | (.ok (), s) =>
            match runBlock e .polynomialChaos (s.active .polynomialChaos) s with
            | (.error err, s) => (.error err, s)
            | (.ok (), s) => runBlock e .kriging (decide (1 < s.dim) && s.active .kriging) s

/-- `setMethodActive`, lines 249-265. -/
def setMethodActive {O : Type} (method : String) (activation : PyVal) : Meth (Summary O) Unit := fun s =>
  match MethodKey.ofName method with
  | none => (.error ⟨.nameError, method ++ " is not an admissible keys."⟩, s)
  | some k =>
    match activation with
    | .bool b => (.ok (), { s with active := Function.update s.active k b })
    | _ => (.error ⟨.valueError, "The given activation parameter is not a boolean."⟩, s)

/-- The getters of lines 326-428. -/
def getPOD {O : Type} (k : MethodKey) (s : Summary O) : Res O :=
  if ¬ s.active k then .error ⟨.exception, k.name ++ " is not activated."⟩
  else if k = .kriging ∧ s.dim = 1 then .error ⟨.exception, "Kriging cannot be used when input dimension is 1."⟩
  else match s.slot k with
    | none => .error ⟨.exception, "The run method must be lauched."⟩
    | some o => .ok o.1

/-- One call on the object. -/
inductive SumOp (O : Type)
  | setActive (method : String) (activation : PyVal)
  | run (e : SumEnv O)

/-- Effect of one call on the attributes, whether or not it raises. -/
def sumStep {O : Type} (s : Summary O) : SumOp O → Summary O
  | .setActive m v => (setMethodActive m v s).2
  | .run e => (summaryRun e s).2

/-- The state after a history of calls. -/
def sumAfter {O : Type} (dim : ℕ) (ops : List (SumOp O)) : Summary O := ops.foldl sumStep (summaryInit O dim)

/-! ## Result tables -/

/-- What the POD objects answer: `computeDetectionSize(p, c)`, `getR2(p)` (quantile regression) or `getR2()`, `getQ2()`,
`drawPOD(p, c)`, `drawLinearModel(p)` of the quantile regression, `drawValidationGraph()`. -/
structure PodFns (O : Type) where
  size : O → ℝ → ℝ → Res (F ℝ × F ℝ)
  r2 : O → ℝ → Res (F ℝ)
  q2 : O → Res (F ℝ)
  drawPOD : O → Option ℝ → Option ℝ → Res Unit
  drawModel : O → ℝ → Res Unit
  drawValidation : O → Res Unit

/-- `try: detectSize = self._PODx.computeDetectionSize(p, c)`, `except Exception: detectSize = [-1, -1]`: an attribute that is
`None` raises `AttributeError`, caught too. -/
def detectSize {O : Type} (f : PodFns O) (slot : Option (O × Bool)) (p c : ℝ) : F ℝ × F ℝ :=
  match slot with
  | none => (.fin (-1), .fin (-1))
  | some o =>
    match f.size o.1 p c with
    | .ok d => d
    | .error _ => (.fin (-1), .fin (-1))

/-- One row of `_dataPOD`: both sizes rounded to two digits. -/
noncomputable def sizeRow {O : Type} (f : PodFns O) (label : String) (slot : Option (O × Bool)) (p c : ℝ) : Row :=
  let d := detectSize f slot p c
  (label, rnd d.1, rnd d.2)

/-- `str(int(p * 100))`: truncation towards zero (levels are nonnegative), in real arithmetic. -/
noncomputable def percentLabel (p : ℝ) : String := toString ⌊p * 100⌋

/-- The header of `_dataPOD`, lines 569-578. -/
noncomputable def podHeader (p c : ℝ) : Row :=
  ("", .txt ("a" ++ percentLabel p), .txt ("a" ++ percentLabel p ++ "/" ++ percentLabel c))

/-- A row of `_dataValidation`: label, R2, Q2, censored R2. -/
abbrev ValidRow := String × Cell × Cell × Cell

/-- The attribute of a method used without protection. -/
def attr {O : Type} (s : Summary O) (k : MethodKey) : Res O :=
  match s.slot k with
  | none => .error ⟨.attributeError, "'NoneType' object has no attribute"⟩
  | some o => .ok o.1

/-- The linear part of `_buildPrintResults`, lines 580-653: rows appended to the two tables. -/
noncomputable def buildLinear {O : Type} (f : PodFns O) (s : Summary O) (p c : ℝ) : Res (List ValidRow × List Row) :=
  if s.active .linearGauss || s.active .linearBinomial || s.active .linearKernelSmoothing then
    match s.analysis with
    | none => .error ⟨.attributeError, "_analysis"⟩
    | some an =>
      .ok ([("Linear Regression (> 0.8):", rnd an.unc.tests.R2, .txt "",
              match an.cens with
              | some r => rnd r.tests.R2
              | none => .txt "")],
        [("Linear Regression", .txt "", .txt "")]
        ++ (if s.active .linearGauss then [sizeRow f "Gaussian residuals :" (s.slot .linearGauss) p c] else [])
        ++ (if s.active .linearBinomial then [sizeRow f "No residuals hypothesis :" (s.slot .linearBinomial) p c] else [])
        ++ (if s.active .linearKernelSmoothing then
              [sizeRow f "Kernel smoothing on residuals :" (s.slot .linearKernelSmoothing) p c] else [])
        ++ [("", .txt "", .txt "")])
  else .ok ([], [])

/-- The quantile regression part, lines 655-682; the text of `round(p, 2)` is a parameter of the label. -/
noncomputable def buildQuantile {O : Type} (f : PodFns O) (pText : String) (s : Summary O) (p c : ℝ) :
    Res (List ValidRow × List Row) :=
  if s.active .quantileRegression then
    match attr s .quantileRegression with
    | .error e => .error e
    | .ok o =>
      match f.r2 o p with
      | .error e => .error e
      | .ok r => .ok ([("Quantile Regression at level " ++ pText ++ " (> 0.6):", rnd r, .txt "", .txt "")],
          [sizeRow f "Quantile Regression :" (s.slot .quantileRegression) p c])
  else .ok ([], [])

/-- The polynomial chaos part, lines 684-709. -/
noncomputable def buildChaos {O : Type} (f : PodFns O) (s : Summary O) (p c : ℝ) : Res (List ValidRow × List Row) :=
  if s.active .polynomialChaos then
    match attr s .polynomialChaos with
    | .error e => .error e
    | .ok o =>
      match f.r2 o p with
      | .error e => .error e
      | .ok r =>
        match f.q2 o with
        | .error e => .error e
        | .ok q => .ok ([("Polynomial Chaos (> 0.8):", rnd r, rnd q, .txt "")],
            [sizeRow f "Polynomial chaos :" (s.slot .polynomialChaos) p c])
  else .ok ([], [])

/-- The kriging part, lines 711-737. -/
noncomputable def buildKriging {O : Type} (f : PodFns O) (s : Summary O) (p c : ℝ) : Res (List ValidRow × List Row) :=
  if decide (1 < s.dim) && s.active .kriging then
    match attr s .kriging with
    | .error e => .error e
    | .ok o =>
      match f.q2 o with
      | .error e => .error e
      | .ok q => .ok ([("Kriging (> 0.8):", .txt "", rnd q, .txt "")], [sizeRow f "Kriging :" (s.slot .kriging) p c])
  else .ok ([], [])

/-- The first four rows of `_dataValidation`, lines 562-567. -/
def validHeader : List ValidRow :=
  [("", .txt "", .txt "Uncensored", .txt "Censored"), ("", .txt "", .txt "", .txt ""),
   ("", .txt "R2", .txt "Q2", .txt "R2"), ("", .txt "", .txt "", .txt "")]

/-- `_buildPrintResults`, lines 557-737: `(_dataValidation, _dataPOD)`. -/
noncomputable def buildPrint {O : Type} (f : PodFns O) (pText : String) (s : Summary O) (p c : ℝ) :
    Res (List ValidRow × List Row) :=
  match buildLinear f s p c with
  | .error e => .error e
  | .ok l =>
    match buildQuantile f pText s p c with
    | .error e => .error e
    | .ok q =>
      match buildChaos f s p c with
      | .error e => .error e
      | .ok ch =>
        match buildKriging f s p c with
        | .error e => .error e
        | .ok k => .ok (validHeader ++ l.1 ++ q.1 ++ ch.1 ++ k.1, podHeader p c :: (l.2 ++ q.2 ++ ch.2 ++ k.2))

/-! ## Graphs -/

/-- Truth value of the attribute `_boxCox` (line 85): a nonzero float is true. -/
noncomputable def BoxCoxArg.truthy : BoxCoxArg ℝ → Bool
  | .float x => open Classical in decide (x ≠ 0)
  | .other b => b

/-- `analysis.drawBoxCoxLikelihood` (834-865): `_graphBoxCox` exists only when λ was computed, i.e. not given as a float
(line 220). -/
def drawLikelihood (b : BoxCoxArg ℝ) : Res Unit :=
  match b with
  | .float _ => .error ⟨.attributeError, "_graphBoxCox"⟩
  | .other false => .error ⟨.exception, "The Box Cox transformation is not enabled."⟩
  | .other true => .ok ()

/-- The graphs of `drawGraphs`, named by their files. -/
abbrev Graphs := List String

/-- The protected call of `drawPOD`: a failure is only logged. -/
def drawPODGuard {O : Type} (f : PodFns O) (slot : Option (O × Bool)) (p c : Option ℝ) (name : String) : Graphs :=
  match slot with
  | none => []
  | some o =>
    match f.drawPOD o.1 p c with
    | .ok () => [name]
    | .error _ => []

/-- `QuantileRegressionPOD.drawLinearModel(p)` (402-443): `1.0 - None` raises `TypeError`. -/
def drawQuantileModel {O : Type} (f : PodFns O) (slot : Option (O × Bool)) (p : Option ℝ) : Res Graphs :=
  match slot with
  | none => .error ⟨.attributeError, "drawLinearModel"⟩
  | some o =>
    match p with
    | none => .error ⟨.typeError, "unsupported operand type(s) for -: 'float' and 'NoneType'"⟩
    | some x =>
      match f.drawModel o.1 x with
      | .error e => .error e
      | .ok () => .ok ["Quantile_regression_model"]

/-- The unprotected `drawValidationGraph`. -/
def drawValid {O : Type} (f : PodFns O) (slot : Option (O × Bool)) (name : String) : Res Graphs :=
  match slot with
  | none => .error ⟨.attributeError, "drawValidationGraph"⟩
  | some o =>
    match f.drawValidation o.1 with
    | .error e => .error e
    | .ok () => .ok [name]

/-- The graphs of the analysis, lines 771-819; an absent `_analysis` raises. -/
noncomputable def drawAnalysis (an : Option Analysis) (b : BoxCoxArg ℝ) (censored : Bool) : Res Graphs :=
  match an with
  | none => .error ⟨.attributeError, "_analysis"⟩
  | some _ =>
    match (if b.truthy then
        match drawLikelihood b with
        | .error e => (.error e : Res Graphs)
        | .ok () => .ok ["BoxCox_likelihood"]
      else .ok []) with
    | .error e => .error e
    | .ok g => .ok (g ++ ["Linear_model", "Residuals", "Residuals_distribution", "Residuals_QQ_plot"]
        ++ (if censored then
            ["Linear_model_censored", "Residuals_censored", "Residuals_distribution_censored", "Residuals_QQ_plot_censored"]
          else []))

/-- `drawGraphs`, lines 739-908.  `boxCox` is the constructor argument of the summary, `censored` its flag. -/
noncomputable def drawGraphs {O : Type} (f : PodFns O) (b : BoxCoxArg ℝ) (censored : Bool) (s : Summary O)
    (p c : Option ℝ) : Res Graphs :=
  match drawAnalysis s.analysis b censored with
  | .error e => .error e
  | .ok g =>
    let g := g ++ (if s.active .linearGauss then drawPODGuard f (s.slot .linearGauss) p c "POD_Gauss" else [])
      ++ (if s.active .linearBinomial then drawPODGuard f (s.slot .linearBinomial) p c "POD_Binomial" else [])
      ++ (if s.active .linearKernelSmoothing then
            drawPODGuard f (s.slot .linearKernelSmoothing) p c "POD_Kernel_Smoothing" else [])
    match (if s.active .quantileRegression then
        match drawQuantileModel f (s.slot .quantileRegression) p with
        | .error e => (.error e : Res Graphs)
        | .ok m => .ok (drawPODGuard f (s.slot .quantileRegression) p c "POD_Quantile_Regression" ++ m)
      else .ok []) with
    | .error e => .error e
    | .ok q =>
      match (if s.active .polynomialChaos then
          match drawValid f (s.slot .polynomialChaos) "Validation_graph_Polynomial_chaos" with
          | .error e => (.error e : Res Graphs)
          | .ok m => .ok (drawPODGuard f (s.slot .polynomialChaos) p c "POD_Polynomial_chaos" ++ m)
        else .ok []) with
      | .error e => .error e
      | .ok ch =>
        match (if decide (1 < s.dim) && s.active .kriging then
            match drawValid f (s.slot .kriging) "Validation_graph_Kriging" with
            | .error e => (.error e : Res Graphs)
            | .ok m => .ok (drawPODGuard f (s.slot .kriging) p c "POD_Kriging" ++ m)
          else .ok []) with
        | .error e => .error e
        | .ok k => .ok (g ++ q ++ ch ++ k)

/-! ## Saved file -/

/-- `"\n".join(rows)`, on characters. -/
def joinLines (rows : List (List Char)) : List Char := List.intercalate ['\n'] rows

/-- `saveResults`, lines 504-555: the text written, from the formatted rows of the four tables. -/
def saveText (regression residuals validation pod : List (List Char)) : List Char :=
  "Linear model analysis results\n\n".toList ++ joinLines regression ++ "\n\nResiduals analysis results\n\n".toList
    ++ joinLines residuals ++ "Model validation results\n\n".toList ++ joinLines validation ++ "\n\nPOD results\n\n".toList
    ++ joinLines pod

end Verif.Model
