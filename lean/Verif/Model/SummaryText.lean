import Verif.Model.Summary
import Verif.Model.Small

/-!
# `PODSummary`: settings given to the methods, detection sizes of the table, text of the results
-/

namespace Verif.Model
open Verif.Py

/-! ## Settings given to the methods -/

/-- The arguments of the constructor of `PODSummary` (_pod_summary.py 70-84) that are passed to every method, apart from the samples. -/
structure SumData where
  detection : ℝ
  noiseThres : Option ℝ
  saturationThres : Option ℝ
  boxCox : PyVal

/-- The third settings argument of `UnivariateLinearModelPOD`: `ot.NormalFactory()`, `ot.KernelSmoothing()` or `None`. -/
inductive ResidualLaw
  | normal | kernelSmoothing | unspecified
  deriving DecidableEq

/-- What an object of a method was constructed with, and its settings when its `run` starts.  `allColumns`: the whole input sample, otherwise its
first column.  `samplingSize` is `none` in the classes without that setting. -/
structure PodConfig where
  allColumns : Bool
  data : SumData
  residuals : Option ResidualLaw
  verbose : Bool
  simulationSize : PyVal
  samplingSize : Option PyVal

/-- The settings of the summary (96-98). -/
structure SumSettings where
  verbose : Bool
  simulationSize : PyVal
  samplingSize : PyVal

/-- The settings of a new summary, lines 96-98. -/
def sumSettingsInit : SumSettings := { verbose := true, simulationSize := .int 1000, samplingSize := .int 5000 }

/-- The constructors and setters of the blocks of `run`: _pod_summary.py 137-147, 156-165, 174-184, 191-200, 207-217, 224-234.  A new object has the
simulation size 1000 (_pod.py 21), the sampling size 5000 and the verbosity `True`. -/
def configure (d : SumData) (s : SumSettings) : MethodKey → PodConfig
  | .linearGauss =>
    { allColumns := false, data := d, residuals := some .normal, verbose := s.verbose, simulationSize := s.simulationSize, samplingSize := none }
  | .linearBinomial =>
    { allColumns := false, data := d, residuals := some .unspecified, verbose := s.verbose, simulationSize := .int 1000, samplingSize := none }
  | .linearKernelSmoothing =>
    { allColumns := false, data := d, residuals := some .kernelSmoothing, verbose := s.verbose, simulationSize := s.simulationSize,
      samplingSize := none }
  | .quantileRegression =>
    { allColumns := false, data := d, residuals := none, verbose := s.verbose, simulationSize := s.simulationSize, samplingSize := none }
  | .polynomialChaos =>
    { allColumns := true, data := d, residuals := none, verbose := s.verbose, simulationSize := s.simulationSize,
      samplingSize := some s.samplingSize }
  | .kriging =>
    { allColumns := true, data := d, residuals := none, verbose := s.verbose, simulationSize := s.simulationSize,
      samplingSize := some s.samplingSize }

/-- Outcome of the parts of one call of `run` that are other classes: the analysis, the constructors and the `run` methods. -/
structure RunOutcome where
  analysis : Res Analysis
  ctor : MethodKey → Res Unit
  exec : MethodKey → Res Unit

/-- A call on a summary. -/
inductive SumCall
  | setVerbose (v : PyVal)
  | setSimulationSize (v : PyVal)
  | setSamplingSize (v : PyVal)
  | setMethodActive (method : String) (activation : PyVal)
  | run (r : RunOutcome)

/-- The attributes of a summary. -/
structure SumObj where
  settings : SumSettings
  core : Summary PodConfig

/-- Effect of one call: `setVerbose` (278-290), `setSimulationSize` (303-312), `setSamplingSize` (430-440), `setMethodActive` (249-265), `run`
(116-235). -/
def sumCall (d : SumData) : SumCall → Meth SumObj Unit
  | .setVerbose v => fun s => ((setVerbose v s.settings.verbose).1,
      { s with settings := { s.settings with verbose := (setVerbose v s.settings.verbose).2 } })
  | .setSimulationSize v => fun s => (.ok (), { s with settings := { s.settings with simulationSize := v } })
  | .setSamplingSize v => fun s => (.ok (), { s with settings := { s.settings with samplingSize := v } })
  | .setMethodActive m v => fun s => ((setMethodActive m v s.core).1, { s with core := (setMethodActive m v s.core).2 })
  | .run r => fun s =>
    let e : SumEnv PodConfig :=
      { analysis := r.analysis
        make := fun k =>
          match r.ctor k with
          | .error err => .error err
          | .ok () => .ok (configure d s.settings k)
        exec := r.exec }
    ((summaryRun e s.core).1, { s with core := (summaryRun e s.core).2 })

/-- The summary after a history of calls on a new one, the exceptions being caught by the caller. -/
def sumObjAfter (d : SumData) (dim : ℕ) (calls : List SumCall) : SumObj :=
  calls.foldl (fun s c => (sumCall d c s).2) { settings := sumSettingsInit, core := summaryInit PodConfig dim }

/-! ## Sizes of the table -/

/-- The sizes asked by `_buildPrintResults` (e.g. _pod_summary.py 603-610) to a method with curve `model` and curve `modelCl c` at confidence
level `c`: `computeDetectionSize(probabilityLevel, confidenceLevel)` (_pod.py 84-148). -/
noncomputable def curveSizes (solve : (ℝ → ℝ) → ℝ → ℝ → ℝ → ℝ) (dataMin dataMax : ℝ) (model : ℝ → ℝ) (modelCl : ℝ → ℝ → ℝ) (p c : ℝ) :
    Res (F ℝ × F ℝ) :=
  match computeDetectionSize solve dataMin dataMax model (some (modelCl c)) (some p) (some c) none none with
  | .error e => .error e
  | .ok ([a, b], _) => .ok (.fin a, .fin b)
  | .ok _ => .error ⟨.indexError, ""⟩

/-! ## Text of the results -/

/-- The warning at the end of `getResults` (_pod_summary.py 490-501). -/
def filteredWarning (censored : Bool) (dim : ℕ) (active : MethodKey → Bool) : Option (List Char) :=
  if censored then
    let msg := "Warning : For ".toList
    let msg := if active .quantileRegression then msg ++ "quantile regression, ".toList else msg
    let msg := if active .polynomialChaos then msg ++ "polynomial chaos, ".toList else msg
    let msg := if decide (1 < dim) && active .kriging then msg ++ "kriging, ".toList else msg
    some (msg ++ "results are given for filtered data.".toList)
  else none

/-- A line of 80 dashes, `"-" * ndash + "\n"`. -/
def dashes : List Char := List.replicate 80 '-' ++ ['\n']

/-- The text returned by `getResults` (_pod_summary.py 462-502) from the formatted rows of the two tables. -/
def resultsText (validation pod : List (List Char)) (warning : Option (List Char)) : List Char :=
  let results := ['\n']
  let results := results ++ dashes
  let results := results ++ "         Model validation results\n".toList
  let results := results ++ dashes
  let results := results ++ joinLines validation ++ ['\n']
  let results := results ++ dashes
  let results := results ++ ['\n']
  let results := results ++ dashes
  let results := results ++ "         POD results\n".toList
  let results := results ++ dashes
  let results := results ++ joinLines pod ++ ['\n']
  let results := results ++ dashes
  let results := results ++ ['\n']
  match warning with
  | some msg => results ++ msg
  | none => results

end Verif.Model
