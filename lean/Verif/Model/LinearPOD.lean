import Verif.Model.Base
import Verif.Model.Stats
import Verif.Py.Sample

/-!
# Linear POD — /repo/otpod/_univariate_linear_model_pod.py
-/

namespace Verif.Model
open Verif.Py Matrix

/-! ## Binomial POD (no residual hypothesis) -/

/-- `ot.UserDefined(residuals).computeComplementaryCDF(t)`: the mass of the values strictly greater than `t`, each
observation weighing `1/N`.  Floating point summation of the weights is idealised. -/
noncomputable def empiricalCCDF (residuals : List ℝ) (t : ℝ) : ℝ :=
  (residuals.countP (fun r => decide (t < r)) : ℝ) / residuals.length

/-- `_PODbinomialModel` (361-369). -/
noncomputable def podBinomial (residuals : List ℝ) (detection : ℝ) (linearModel : ℝ → ℝ) (x : ℝ) : ℝ :=
  empiricalCCDF residuals (detection - linearModel x)

/-- `_PODbinomialModelCl` (371-391).  `qBeta a b c` is `ot.DistFunc.qBeta`. -/
noncomputable def podBinomialCl (qBeta : ℕ → ℕ → ℝ → ℝ) (residuals : List ℝ) (detection : ℝ)
    (linearModel : ℝ → ℝ) (confLevel x : ℝ) : ℝ :=
  let n := residuals.length
  let nbDepDef := (pyInt (n * empiricalCCDF residuals (detection - linearModel x))).toNat
  if nbDepDef = n then confLevel ^ ((1 : ℝ) / n)
  else 1 - qBeta (n - nbDepDef) (nbDepDef + 1) confLevel

/-! ## Gaussian POD -/

/-- The matrix with columns 1 and the defects (398-400). -/
def designMatrix {n : ℕ} (defects : Fin n → ℝ) : Matrix (Fin n) (Fin 2) ℝ :=
  Matrix.of fun i => ![1, defects i]

/-- `predictionVariance` (402-406); `gramX.solveLinearSystem(Y)` is the product by the inverse (the design matrix is
assumed of full rank; with a singular matrix LAPACK raises, outside the model). -/
noncomputable def predictionVariance {n : ℕ} (defects : Fin n → ℝ) (stderr x : ℝ) : ℝ :=
  let X := designMatrix defects
  let Y : Fin 2 → ℝ := ![1, x]
  stderr ^ 2 * (1 + Y ⬝ᵥ ((Xᵀ * X)⁻¹ *ᵥ Y))

/-- `_PODgaussModel` (397-416). -/
noncomputable def podGauss {n : ℕ} (defects : Fin n → ℝ) (stderr detection : ℝ) (linearModel : ℝ → ℝ) (x : ℝ) : ℝ :=
  PhiC ((detection - linearModel x) / Real.sqrt (predictionVariance defects stderr x))

/-- One simulated curve of `_PODgaussModelCl` (418-455): `z0, z1` is the draw of the bivariate normal with covariance
(XᵀX)⁻¹, `sigma` the draw of the residual standard deviation. -/
noncomputable def gaussCurve (intercept slope detection z0 z1 sigma x : ℝ) : ℝ :=
  PhiC ((detection - ((z0 * sigma + intercept) + (z1 * sigma + slope) * x)) / sigma)

/-- One bootstrap curve (`buildPODModel.PODmodel`, 501-503); `ccdf` is the complementary cdf of the law fitted on the
resampled residuals. -/
noncomputable def bootstrapCurve (ccdf : ℝ → ℝ) (detection intercept slope x : ℝ) : ℝ :=
  ccdf (detection - (intercept + slope * x))

/-! ## Confidence curve from a collection -/

/-- Loop of `PODfunction` (250-254): read the curves `0 … simulationSize-1`, raising IndexError on a missing one, then
take the quantile of order `1 - confidenceLevel`. The quantile of an empty sample raises in OpenTURNS. -/
noncomputable def collectCurves (coll : List (ℝ → ℝ)) (x : ℝ) : List ℕ → Res (List ℝ)
  | [] => .ok []
  | i :: is =>
    match coll[i]? with
    | none => .error ⟨.indexError, "list index out of range"⟩
    | some f =>
      match collectCurves coll x is with
      | .error e => .error e
      | .ok vs => .ok (f x :: vs)

/-- `getPODCLModel(confidenceLevel)` evaluated at `x` (246-256). -/
noncomputable def podClFromCollection (simulationSize : ℕ) (coll : List (ℝ → ℝ)) (confidenceLevel x : ℝ) : Res ℝ :=
  match collectCurves coll x (List.range simulationSize) with
  | .error e => .error e
  | .ok vs => if vs = [] then .error ⟨.runtime, ""⟩ else .ok (quantile vs (1 - confidenceLevel))

/-- Attributes involved in the confidence curve. -/
structure ClState where
  simulationSize : ℕ
  coll : Option (List (ℝ → ℝ))

/-- Calls that change them: `setSimulationSize` (_pod.py 69-78) and `run` (139-213), which builds
`simulationSize` curves; `curves k` is the k-th curve simulated in that run. -/
inductive ClOp where
  | setSimulationSize (n : ℕ)
  | run (curves : ℕ → ℝ → ℝ)

/-- Effect of a call. -/
def clStep (s : ClState) : ClOp → ClState
  | .setSimulationSize n => { s with simulationSize := n }
  | .run curves => { s with coll := some ((List.range s.simulationSize).map curves) }

/-- Effect of a sequence of calls on a new object (`_simulationSize = 1000`, no collection). -/
def clRun (ops : List ClOp) : ClState := ops.foldl clStep ⟨1000, none⟩

/-- Evaluation of the confidence curve in a state; before `run` the attribute `_PODcollDict` does not exist. -/
noncomputable def clEval (s : ClState) (confidenceLevel x : ℝ) : Res ℝ :=
  match s.coll with
  | none => .error ⟨.attributeError, ""⟩
  | some coll => podClFromCollection s.simulationSize coll confidenceLevel x

end Verif.Model
