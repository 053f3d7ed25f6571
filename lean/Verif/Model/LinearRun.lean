import Verif.Model.LinearPOD
import Verif.Model.CensoredFit

/-!
# Fitting of the linear model, in the POD class and in the analysis class

`_computeLinearModel` (/repo/otpod/_univariate_linear_model_pod.py 538-625) and `UnivariateLinearModelAnalysis._run`
(/repo/otpod/_univariate_linear_model_analysis.py 176-290).  External functions: the Box-Cox optimiser, least squares
(statsmodels), the simplex minimiser and the random starts of the censored fit.  All are deterministic functions of their
arguments except the random starts, which are a parameter of each run.
-/

namespace Verif.Model
open Verif.Py

/-- External functions. -/
structure LinEnv where
  /-- `computeBoxCox(defects, signals, shift)` -/
  boxCox : List ℝ → List ℝ → ℝ → Res ℝ
  /-- least squares: intercept, slope, standard error -/
  ols : List (ℝ × ℝ) → ℝ × ℝ × ℝ
  /-- `scipy.optimize.fmin` -/
  fmin : (ℝ × ℝ × ℝ → F ℝ) → ℝ × ℝ × ℝ → FminResult (ℝ × ℝ × ℝ)

/-- Parameters of a fitted line: intercept, slope, standard error, and its residuals. -/
structure LineFit where
  intercept : ℝ
  slope : ℝ
  stderr : ℝ
  residuals : List ℝ

/-- Residuals of a line on the observations. -/
def lineResiduals (b0 b1 : ℝ) (obs : List (ℝ × ℝ)) : List ℝ := obs.map fun o => o.2 - (b0 + b1 * o.1)

/-- The defects in the noisy area and in the saturation area (`filterCensoredData`, _math_tools.py 284-287). -/
noncomputable def noiseDefects (fmax : ℝ) (obs : List (ℝ × ℝ)) (noise : Option ℝ) : List ℝ :=
  (obs.filter fun o => decide (o.2 ≤ noise.getD (-fmax))).map Prod.fst

/-- The defects in the saturation area. -/
noncomputable def satDefects (fmax : ℝ) (obs : List (ℝ × ℝ)) (sat : Option ℝ) : List ℝ :=
  (obs.filter fun o => decide (sat.getD fmax ≤ o.2)).map Prod.fst

/-- The objective of the censored fit as a function of the parameters; if it raises, it raises for every parameter. -/
noncomputable def mleObjective (unc : List (ℝ × ℝ)) (dNoise dSat : List ℝ) (noise sat : Option ℝ) (X : ℝ × ℝ × ℝ) : F ℝ :=
  match MLE X (unc.map Prod.fst) dNoise dSat (unc.map Prod.snd) noise sat with
  | .ok v => v
  | .error _ => .nan

/-- `computeLinearParametersCensored` on the data, then the residuals of the fitted line
(_univariate_linear_model_pod.py 599-614; _univariate_linear_model_analysis.py 251-289). -/
noncomputable def censoredFit (env : LinEnv) (draws : ℕ → ℝ × ℝ × ℝ) (start : ℝ × ℝ × ℝ) (unc : List (ℝ × ℝ))
    (dNoise dSat : List ℝ) (noise sat : Option ℝ) : Res LineFit :=
  match MLE start (unc.map Prod.fst) dNoise dSat (unc.map Prod.snd) noise sat with
  | .error e => .error e
  | .ok _ =>
    match (computeLinearParametersCensored (mleObjective unc dNoise dSat noise sat) env.fmin draws start).result with
    | .error e => .error e
    | .ok (x, _) => .ok ⟨x.1, x.2.1, x.2.2, lineResiduals x.1 x.2.1 unc⟩

/-- Dictionary returned by `_computeLinearModel` (615-625). -/
structure LinModelResult where
  obs : List (ℝ × ℝ)
  fit : LineFit
  detection : ℝ
  lambda : Option ℝ

/-- Steps after the Box-Cox transformation: least squares, then the censored fit (582-614). -/
noncomputable def linFit (env : LinEnv) (draws : ℕ → ℝ × ℝ × ℝ) (censored : Bool) (unc : List (ℝ × ℝ)) (dNoise dSat : List ℝ)
    (noise sat : Option ℝ) : Res LineFit :=
  let p := env.ols unc
  if censored then censoredFit env draws p unc dNoise dSat noise sat
  else .ok ⟨p.1, p.2.1, p.2.2, lineResiduals p.1 p.2.1 unc⟩

/-- `_computeLinearModel` (538-625). -/
noncomputable def computeLinearModel (fmax : ℝ) (env : LinEnv) (draws : ℕ → ℝ × ℝ × ℝ) (obs : List (ℝ × ℝ)) (detection : ℝ)
    (noise sat : Option ℝ) (boxCox censored : Bool) : Res LinModelResult :=
  let unc := if censored then uncensoredObs fmax obs noise sat else obs
  let dNoise := noiseDefects fmax obs noise
  let dSat := satDefects fmax obs sat
  if boxCox then
    match boxCoxShift (unc.map Prod.snd) with
    | .error e => .error e
    | .ok shift =>
      match env.boxCox (unc.map Prod.fst) (unc.map Prod.snd) shift with
      | .error e => .error e
      | .ok lam =>
        match boxCoxSample lam ((unc.map Prod.snd).map (· + shift)) with
        | .error e => .error e
        | .ok signals =>
          match boxCoxThreshold lam shift (if censored then noise else none) with
          | .error e => .error e
          | .ok noise' =>
            match boxCoxThreshold lam shift (if censored then sat else none) with
            | .error e => .error e
            | .ok sat' =>
              match boxCoxTransform lam (detection + shift) with
              | .error e => .error e
              | .ok det =>
                let unc' := (unc.map Prod.fst).zip signals
                match linFit env draws censored unc' dNoise dSat noise' sat' with
                | .error e => .error e
                | .ok fit => .ok ⟨unc', fit, det, some lam⟩
  else
    match linFit env draws censored unc dNoise dSat noise sat with
    | .error e => .error e
    | .ok fit => .ok ⟨unc, fit, detection, none⟩

/-- What the analysis keeps: the uncensored fit, the censored fit when a threshold was given, the Box-Cox parameter. -/
structure AnalysisFit where
  obs : List (ℝ × ℝ)
  unc : LineFit
  cens : Option LineFit
  lambda : Option ℝ

/-- Both fits of the analysis (243-289). -/
noncomputable def analysisFits (env : LinEnv) (draws : ℕ → ℝ × ℝ × ℝ) (censored : Bool) (unc : List (ℝ × ℝ))
    (dNoise dSat : List ℝ) (noise sat : Option ℝ) (lam : Option ℝ) : Res AnalysisFit :=
  let p := env.ols unc
  let fit0 : LineFit := ⟨p.1, p.2.1, p.2.2, lineResiduals p.1 p.2.1 unc⟩
  if censored then
    match censoredFit env draws p unc dNoise dSat noise sat with
    | .error e => .error e
    | .ok fit => .ok ⟨unc, fit0, some fit, lam⟩
  else .ok ⟨unc, fit0, none, lam⟩

/-- `UnivariateLinearModelAnalysis._run` (176-290); `userLambda` is the attribute `_lambdaBoxCox` set by the constructor.
The censoring flag is that of the constructor (130-140). -/
noncomputable def analysisRun (fmax : ℝ) (env : LinEnv) (draws : ℕ → ℝ × ℝ × ℝ) (obs : List (ℝ × ℝ))
    (noise sat : Option ℝ) (boxCox : Bool) (userLambda : Option ℝ) : Res AnalysisFit :=
  let censored := noise.isSome || sat.isSome
  let unc := if censored then uncensoredObs fmax obs noise sat else obs
  let dNoise := noiseDefects fmax obs noise
  let dSat := satDefects fmax obs sat
  if boxCox then
    match boxCoxShift (unc.map Prod.snd) with
    | .error e => .error e
    | .ok shift =>
      match (match userLambda with
        | some l => .ok l
        | none => env.boxCox (unc.map Prod.fst) (unc.map Prod.snd) shift : Res ℝ) with
      | .error e => .error e
      | .ok lam =>
        match boxCoxSample lam ((unc.map Prod.snd).map (· + shift)) with
        | .error e => .error e
        | .ok signals =>
          match boxCoxThreshold lam shift noise with
          | .error e => .error e
          | .ok noise' =>
            match boxCoxThreshold lam shift sat with
            | .error e => .error e
            | .ok sat' =>
              analysisFits env draws censored ((unc.map Prod.fst).zip signals) dNoise dSat noise' sat' (some lam)
  else analysisFits env draws censored unc dNoise dSat noise sat none

/-- `UnivariateLinearModelPOD(analysis=…, detection=…).run()`: the constructor takes the data, the thresholds and
`getBoxCoxParameter()` of the analysis (107-112, base constructor _pod.py 31-46), then `run` calls `_computeLinearModel`. -/
noncomputable def podFromAnalysis (fmax : ℝ) (env : LinEnv) (draws : ℕ → ℝ × ℝ × ℝ) (obs : List (ℝ × ℝ)) (detection : ℝ)
    (noise sat : Option ℝ) (an : AnalysisFit) : Res LinModelResult :=
  computeLinearModel fmax env draws obs detection noise sat an.lambda.isSome (noise.isSome || sat.isSome)

end Verif.Model
