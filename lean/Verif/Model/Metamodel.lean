import Verif.Model.Base
import Verif.Model.QuantileReg
import Verif.Py.Sample
import Verif.Py.Interp
import Verif.Py.Gauss

/-!
# Code shared by the metamodel-based POD classes

`_kriging_tools.py`, `_kriging_pod.py`, `_polynomial_chaos_pod.py`, `_adaptive_hitmiss_pod.py`.
-/

namespace Verif.Model
open Verif.Py MeasureTheory ProbabilityTheory

/-! ## `setDefectSizes` -/

/-- The attributes `_defectSizes` and `_defectNumber`. -/
structure SizeAttrs where
  sizes : List ℝ
  number : ℕ

/-- Default sizes: `linspace(min, max, number)` over the observed defects
(_kriging_pod.py 134-140, _polynomial_chaos_pod.py 132-139, _adaptive_hitmiss_pod.py 155-161: 20 sizes;
_adaptive_signal_pod.py 163-169: 10 sizes). -/
noncomputable def defaultSizes (observed : List ℝ) (number : ℕ) : Res SizeAttrs :=
  match sampleMin observed, sampleMax observed with
  | .ok mn, .ok mx => .ok ⟨linspace mn mx number, number⟩
  | _, _ => .error ⟨.runtime, ""⟩

/-- `setDefectSizes` (_kriging_tools.py 247-268; same text in _polynomial_chaos_pod.py 471-492,
_adaptive_hitmiss_pod.py 728-749, _sobol_indices.py 372-393 and, before its last line, _pli_pod.py 145-169).
`observed` is the first column of the (filtered) input sample.  `np.hstack` of an empty array raises ValueError.
The attribute `_defectSizes` is assigned *before* the range check.  NaN sizes are outside the model. -/
noncomputable def setDefectSizes (observed arg : List ℝ) : Meth SizeAttrs Unit := fun s =>
  if arg = [] then (.error ⟨.valueError, "need at least one array to concatenate"⟩, s)
  else
    let size := sortR arg
    let s1 := { s with sizes := size }
    match sampleMin observed, sampleMax observed with
    | .ok mn, .ok mx =>
      if mx < size.getD (size.length - 1) 0 ∨ size.getD 0 0 < mn then
        (.error ⟨.valueError, "Defect sizes must range between"⟩, s1)
      else (.ok (), { s1 with number := size.length })
    | _, _ => (.error ⟨.runtime, ""⟩, s1)

/-! ## Simulation per defect and confidence curve -/

/-- Attributes written by `run`: simulated POD values per defect size (columns) and the interpolated curve. -/
structure SimAttrs extends SizeAttrs where
  perDefect : Option (List (List ℝ)) := none
  curve : Option (ℝ → Res ℝ) := none

/-- `sample.computeMean()` of one column. -/
noncomputable def listMean (xs : List ℝ) : ℝ := xs.sum / xs.length

/-- The last part of `KrigingPOD.run` (_kriging_pod.py 198-217; also _adaptive_signal_pod.py 426-446).  `sim i d` is the
sample simulated for the `i`-th defect size `d`, `rows` its length.  The matrix has `_defectNumber` columns of zeros;
column `i` is assigned for the `i`-th size, raising IndexError (OpenTURNS bounds check) when there is no such column.
`interp1d` raises ValueError when the number of columns differs from the number of sizes. -/
noncomputable def krigingRunSim (rows : ℕ) (sim : ℕ → ℝ → List ℝ) : Meth SimAttrs Unit := fun s =>
  let written := s.sizes.mapIdx sim
  if s.number < s.sizes.length then
    (.error ⟨.indexError, ""⟩, { s with perDefect := some (written.take s.number) })
  else
    let cols := written ++ List.replicate (s.number - s.sizes.length) (List.replicate rows 0)
    let s1 := { s with perDefect := some cols }
    match interp1d s.sizes (cols.map listMean) with
    | .error e => (.error e, s1)
    | .ok f => (.ok (), { s1 with curve := some f })

/-- `getPODCLModel` (_kriging_tools.py 32-55; same text in _polynomial_chaos_pod.py 229-252 and
_adaptive_hitmiss_pod.py 428-451).  Before `run` the attribute does not exist. -/
noncomputable def getPODCLModel (s : SimAttrs) (confidenceLevel : ℝ) : Res (ℝ → Res ℝ) :=
  match s.perDefect with
  | none => .error ⟨.attributeError, ""⟩
  | some cols => interp1d s.sizes (cols.map fun col => quantile col (1 - confidenceLevel))

/-- `setDefectSizes` on the larger object. -/
noncomputable def simSetSizes (observed arg : List ℝ) : Meth SimAttrs Unit := fun s =>
  let (r, s1) := setDefectSizes observed arg s.toSizeAttrs
  (r, { s with toSizeAttrs := s1 })

/-- Calls a user may make. -/
inductive SimOp
  | setSizes (arg : List ℝ)
  | run (rows : ℕ) (sim : ℕ → ℝ → List ℝ)

/-- One call; exceptions are caught by the user. -/
noncomputable def simStep (observed : List ℝ) (s : SimAttrs) : SimOp → Res Unit × SimAttrs
  | .setSizes arg => simSetSizes observed arg s
  | .run rows sim => krigingRunSim rows sim s

/-- A history of calls. -/
noncomputable def simHistory (observed : List ℝ) (ops : List SimOp) (s : SimAttrs) : SimAttrs :=
  ops.foldl (fun s op => (simStep observed s op).2) s

/-! ## Bounds of `drawPOD` -/

/-- The check of the bounds in `drawPOD` (_kriging_tools.py 92-113, _polynomial_chaos_pod.py 289-310,
_adaptive_hitmiss_pod.py 488-509 with the defect sizes; _quantile_regression_pod.py 347-368 with the observed
defects): result is the interval passed to `_drawPOD`. -/
noncomputable def drawBounds (defects : List ℝ) (defectMin defectMax : Option ℝ) : Res (ℝ × ℝ) :=
  match sampleMin defects, sampleMax defects with
  | .ok mn, .ok mx =>
    match defectMin with
    | none =>
      match defectMax with
      | none => .ok (mn, mx)
      | some b =>
        if mx < b then .error ⟨.valueError, "DefectMax must be lower than the maximum of the given defect sizes."⟩
        else if b < mn then .error ⟨.valueError, "DefectMax must be greater than the minimum of the given defect sizes."⟩
        else .ok (mn, b)
    | some a =>
      if a < mn then .error ⟨.valueError, "DefectMin must be greater than the minimum of the given defect sizes."⟩
      else if mx < a then .error ⟨.valueError, "DefectMin must be lower than the maximum of the given defect sizes."⟩
      else
        match defectMax with
        | none => .ok (a, mx)
        | some b =>
          if mx < b then .error ⟨.valueError, "DefectMax must be lower than the maximum of the given defect sizes."⟩
          else if b < mn then .error ⟨.valueError, "DefectMax must be greater than the minimum of the given defect sizes."⟩
          else .ok (a, b)
  | _, _ => .error ⟨.valueError, ""⟩

/-! ## Vectorised Monte Carlo -/

/-- `_mergeDefectInX` (_polynomial_chaos_pod.py 722-732, _adaptive_hitmiss_pod.py 818-828,
_adaptive_signal_pod.py 532-542): a row is the pair of the defect and the other coordinates. -/
def mergeDefectInX {X : Type} (defect : ℝ) (xs : List X) : List (ℝ × X) := xs.map fun x => (defect, x)

/-- Slice assignment `full[start : start+len(block)] = block`. -/
def assignRows {α : Type} (full : List α) (start : ℕ) (block : List α) : List α :=
  full.take start ++ block ++ full.drop (start + block.length)

/-- The loop filling `fullSamplePred` (_polynomial_chaos_pod.py 749-754, _adaptive_hitmiss_pod.py 836-840), which starts
from a sample of `samplingSize * defectNumber` zero rows. -/
def fullSample {X : Type} (zero : ℝ × X) (samplingSize number : ℕ) (sizes : List ℝ) (xs : List X) : List (ℝ × X) :=
  (sizes.zipIdx).foldl (fun full di => assignRows full (samplingSize * di.2) (mergeDefectInX di.1 xs))
    (List.replicate (samplingSize * number) zero)

/-- `np.reshape(v, (m, D), "F")`, by columns. -/
def reshapeF (v : List ℝ) (m D : ℕ) : List (List ℝ) :=
  (List.range D).map fun j => (List.range m).map fun k => v.getD (m * j + k) 0

/-- `np.mean(column > detection)`. -/
noncomputable def fracAbove (detection : ℝ) (col : List ℝ) : ℝ :=
  (col.countP (fun y => decide (detection < y)) : ℝ) / col.length

/-- `PolynomialChaosPOD._computePOD` (_polynomial_chaos_pod.py 744-774).  `chaos` is the metamodel with the given
coefficients, `noise` the normal sample multiplied by the standard error. -/
noncomputable def chaosComputePOD {X : Type} (zero : ℝ × X) (chaos : ℝ × X → ℝ) (noise : List ℝ) (detection : ℝ)
    (samplingSize number : ℕ) (sizes : List ℝ) (xs : List X) : List ℝ :=
  let values := (fullSample zero samplingSize number sizes xs).map chaos
  let random := List.zipWith (· + ·) values noise
  (reshapeF random samplingSize number).map (fracAbove detection)

/-- `AdaptiveHitMissPOD._computePOD` (_adaptive_hitmiss_pod.py 830-846): the sample of detection probabilities, by
columns.  `classifier` is the second column of the aggregated classifier. -/
def hitMissComputePOD {X : Type} (zero : ℝ × X) (classifier : ℝ × X → ℝ)
    (samplingSize number : ℕ) (sizes : List ℝ) (xs : List X) : List (List ℝ) :=
  reshapeF ((fullSample zero samplingSize number sizes xs).map classifier) samplingSize number

/-! ## Law of the kriging POD estimator -/

/-- The distributions built in `_computePODSamplePerDefect`. -/
inductive PodLaw
  | normal (mean sd : ℝ)
  | dirac (x : ℝ)

/-- The law of one trajectory (_kriging_tools.py 448-463): `p` the fraction above the threshold,
`VAR_TCL = p(1-p)/m`. -/
noncomputable def podLaw (detection : ℝ) (trajectory : List ℝ) : PodLaw :=
  let p := fracAbove detection trajectory
  let var := p * (1 - p) / trajectory.length
  if 0 < var then .normal p (Real.sqrt var) else if p < 1 then .dirac 0 else .dirac 1

/-- The probability law denoted by `ot.Normal(mean, sd)` or `ot.Dirac`. -/
noncomputable def PodLaw.law : PodLaw → Measure ℝ
  | .normal mean sd => gaussianReal mean (sqv sd)
  | .dirac x => Measure.dirac x

/-- `ot.Mixture(laws)` with equal weights (line 464). -/
noncomputable def mixtureLaw {n : ℕ} (laws : Fin n → PodLaw) : Measure ℝ :=
  (n : ENNReal)⁻¹ • ∑ i, (laws i).law

/-- `_randomVectorSampling` (_kriging_tools.py 470-490): trajectory number `k` at point `i`.  One standard normal deviate
`xi k` per trajectory is broadcast over the points. -/
noncomputable def randomVector {n : ℕ} (xi : ℕ → ℝ) (mean variance : Fin n → ℝ) (k : ℕ) (i : Fin n) : ℝ :=
  xi k * Real.sqrt (variance i) + mean i

end Verif.Model
