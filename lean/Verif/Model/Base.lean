import Verif.Py.Basic
import Verif.Model.Censoring
import Mathlib.Analysis.SpecialFunctions.Pow.Real
import Mathlib.Analysis.SpecialFunctions.Log.Basic
import Mathlib.Algebra.Order.Floor.Ring
import Mathlib.Data.Real.Archimedean
import Mathlib.Data.Int.Log
import Mathlib.Data.Rat.Floor

/-!
# Base class `POD` — /repo/otpod/_pod.py, and the constructors of the subclasses
-/

namespace Verif.Model
open Verif.Py

/-! ## Constructors -/

/-- The `boxCox` argument as far as the code distinguishes it: a Python `float`, or any other object of
which only the truth value matters (`True`, `False`, `None`, an `int`). -/
inductive BoxCoxArg (K : Type)
  | float (x : K)
  | other (truthy : Bool)
  deriving DecidableEq

/-- What the constructors look at: the shapes of the two samples, the optional thresholds, `boxCox`. -/
structure CtorArgs (K : Type) where
  inSize : ℕ
  inDim : ℕ
  outSize : ℕ
  outDim : ℕ
  noiseThres : Option K
  saturationThres : Option K
  boxCox : BoxCoxArg K

/-- Attributes set by the base constructor. -/
structure PodInit (K : Type) where
  size : ℕ
  dim : ℕ
  censored : Bool
  lambda : Option K
  boxCox : Bool
  simulationSize : ℕ
  deriving DecidableEq

/-- Lines 31-36 of _pod.py: λ and the Box-Cox flag from the argument. -/
def boxCoxInit {K : Type} : BoxCoxArg K → Option K × Bool
  | .float x => (some x, true)
  | .other b => (none, b)

/-- `POD.__init__` (_pod.py 17-56): attributes first, then three assertions in order. -/
def podInit {K : Type} (a : CtorArgs K) : Res (PodInit K) :=
  if ¬ (3 ≤ a.inSize) then .error ⟨.assertion, "Not enough observations."⟩
  else if ¬ (a.inSize = a.outSize) then
    .error ⟨.assertion, "InputSample and outputSample must have the same size."⟩
  else if ¬ (a.outDim = 1) then .error ⟨.assertion, "Dimension outputSample must be 1."⟩
  else .ok { size := a.inSize, dim := a.inDim,
             censored := a.noiseThres.isSome || a.saturationThres.isSome,
             lambda := (boxCoxInit a.boxCox).1, boxCox := (boxCoxInit a.boxCox).2, simulationSize := 1000 }

/-- The six POD classes. -/
inductive PodClass
  | linear | quantile | kriging | adaptiveSignal | chaos | hitMiss
  deriving DecidableEq

/-- Assertion of a subclass on the input dimension (_univariate_linear_model_pod.py 137,
_quantile_regression_pod.py 91, _kriging_pod.py 99, _adaptive_signal_pod.py 122; none in
_polynomial_chaos_pod.py and _adaptive_hitmiss_pod.py). -/
def dimCheck (c : PodClass) (dim : ℕ) : Res Unit :=
  match c with
  | .linear => if dim = 1 then .ok () else .error ⟨.assertion, "Dimension inputSample must be 1."⟩
  | .quantile => if dim = 1 then .ok () else .error ⟨.assertion, "Dimension of inputSample must be 1."⟩
  | .kriging => if dim > 1 then .ok () else
      .error ⟨.assertion, "Dimension of inputSample must be greater than 1."⟩
  | .adaptiveSignal => if dim > 1 then .ok () else
      .error ⟨.assertion, "Dimension of inputSample must be greater than 1."⟩
  | .chaos => .ok ()
  | .hitMiss => .ok ()

/-- Hit-miss forces `boxCox = False` (_adaptive_hitmiss_pod.py 95). -/
def ctorArgsFor {K : Type} (c : PodClass) (a : CtorArgs K) : CtorArgs K :=
  match c with
  | .hitMiss => { a with boxCox := .other false }
  | _ => a

/-- Constructor of a subclass up to the assertion on the input dimension: base constructor, then `dimCheck`. -/
def subclassInit {K : Type} (c : PodClass) (a : CtorArgs K) : Res (PodInit K) :=
  match podInit (ctorArgsFor c a) with
  | .error e => .error e
  | .ok st => match dimCheck c st.dim with
    | .error e => .error e
    | .ok () => .ok st

/-- `UnivariateLinearModelAnalysis.__init__`, checks only (_univariate_linear_model_analysis.py 144-166):
same three assertions with the input dimension checked third. -/
def analysisInit {K : Type} (a : CtorArgs K) : Res (PodInit K) :=
  if ¬ (3 ≤ a.inSize) then .error ⟨.assertion, "Not enough observations."⟩
  else if ¬ (a.inSize = a.outSize) then
    .error ⟨.assertion, "InputSample and outputSample must have the same size."⟩
  else if ¬ (a.inDim = 1) then .error ⟨.assertion, "Dimension of inputSample must be 1."⟩
  else if ¬ (a.outDim = 1) then .error ⟨.assertion, "Dimension of outputSample must be 1."⟩
  else .ok { size := a.inSize, dim := a.inDim,
             censored := a.noiseThres.isSome || a.saturationThres.isSome,
             lambda := (boxCoxInit a.boxCox).1, boxCox := (boxCoxInit a.boxCox).2, simulationSize := 1000 }

/-! ## Linear POD constructor with an analysis -/

/-- What the POD constructor reads from an analysis object (_univariate_linear_model_pod.py 107-112). -/
structure AnalysisData (S K R : Type) where
  inputSample : S
  outputSample : S
  noiseThres : Option K
  saturationThres : Option K
  boxCoxParameter : Option K
  resDistFact : R

/-- Arguments of `UnivariateLinearModelPOD(...)`; `none` is an argument left out. -/
structure LinearCtorArgs (S K R : Type) where
  inputSample : Option S
  outputSample : Option S
  detection : Option K
  noiseThres : Option K
  saturationThres : Option K
  resDistFact : Option R
  boxCox : BoxCoxArg K
  analysis : Option (AnalysisData S K R)

/-- The arguments that reach the base constructor, and the residual factory. -/
structure LinearResolved (S K R : Type) where
  inputSample : Option S
  outputSample : Option S
  detection : Option K
  noiseThres : Option K
  saturationThres : Option K
  boxCox : BoxCoxArg K
  resDistFact : Option R

/-- First half of `UnivariateLinearModelPOD.__init__` (lines 90-116): exclusivity check, then the data of the
analysis replace the arguments.  `analysis.getBoxCoxParameter()` is a float or `None`. -/
def resolveLinearArgs {S K R : Type} (a : LinearCtorArgs S K R) : Res (LinearResolved S K R) :=
  match a.analysis with
  | some an =>
    if a.inputSample.isNone ∧ a.outputSample.isNone ∧ a.noiseThres.isNone ∧ a.saturationThres.isNone ∧
        a.resDistFact.isNone ∧ a.detection.isSome then
      .ok { inputSample := some an.inputSample, outputSample := some an.outputSample,
            detection := a.detection, noiseThres := an.noiseThres, saturationThres := an.saturationThres,
            boxCox := match an.boxCoxParameter with
              | some l => .float l
              | none => .other false,
            resDistFact := some an.resDistFact }
    else .error ⟨.attributeError, "The constructor available with a linear analysis as parameter must only have the detection parameter."⟩
  | none =>
    .ok { inputSample := a.inputSample, outputSample := a.outputSample, detection := a.detection,
          noiseThres := a.noiseThres, saturationThres := a.saturationThres, boxCox := a.boxCox,
          resDistFact := a.resDistFact }

/-! ## Box-Cox -/

/-- The Box-Cox function on positive numbers: `(x^λ - 1)/λ`, or `log x` for `λ = 0`. -/
noncomputable def boxCoxFun (lam x : ℝ) : ℝ := if lam = 0 then Real.log x else (x ^ lam - 1) / lam

/-- `ot.BoxCoxTransform([λ])` applied to one value: OpenTURNS raises for a non-positive argument. -/
noncomputable def boxCoxTransform (lam x : ℝ) : Res ℝ :=
  if 0 < x then .ok (boxCoxFun lam x) else .error ⟨.typeError, ""⟩

/-- Applied to a sample. -/
noncomputable def boxCoxSample (lam : ℝ) (xs : List ℝ) : Res (List ℝ) :=
  if ∀ x ∈ xs, 0 < x then .ok (xs.map (boxCoxFun lam)) else .error ⟨.typeError, ""⟩

/-- `ot.BoxCoxTransform([λ]).getInverse()` on one value. -/
noncomputable def boxCoxInv (lam y : ℝ) : ℝ :=
  if lam = 0 then Real.exp y else (lam * y + 1) ^ lam⁻¹

/-- Minimum of a sample; OpenTURNS raises on an empty sample. -/
noncomputable def sampleMin : List ℝ → Res ℝ
  | [] => .error ⟨.runtime, ""⟩
  | x :: xs => .ok (xs.foldl min x)

/-- Maximum of a sample. -/
noncomputable def sampleMax : List ℝ → Res ℝ
  | [] => .error ⟨.runtime, ""⟩
  | x :: xs => .ok (xs.foldl max x)

/-- The shift of lines 319-321 (and of _univariate_linear_model_pod.py 565-568,
_univariate_linear_model_analysis.py 213-216). -/
noncomputable def boxCoxShift (signals : List ℝ) : Res ℝ :=
  match sampleMin signals with
  | .error e => .error e
  | .ok mn => .ok (if mn < 0 then -mn + 100 else 0)

/-- The uncensored observations for finite signals: `filterCensoredData` restricted to real numbers
(`fmax = sys.float_info.max`).  `Props/Base` proves that this is the model of `Model/Censoring`. -/
noncomputable def uncensoredObs {α : Type} (fmax : ℝ) (obs : List (α × ℝ)) (noise sat : Option ℝ) :
    List (α × ℝ) :=
  obs.filter fun o => decide (noise.getD (-fmax) < o.2) && decide (o.2 < sat.getD fmax)

/-- Transformation of an optional threshold (lines 332-335): `None` stays `None`. -/
noncomputable def boxCoxThreshold (lam shift : ℝ) : Option ℝ → Res (Option ℝ)
  | none => .ok none
  | some t => match boxCoxTransform lam (t + shift) with
    | .error e => .error e
    | .ok y => .ok (some y)

/-- Attributes written by `POD._run`. -/
structure BoxCoxAttrs (G : Type) where
  lambda : Option ℝ
  graph : Option G

/-- Dictionary returned by `POD._run` (lines 342-348); `transform` holds the parameter of
`boxCoxTransform`. -/
structure RunResult (α : Type) where
  obs : List (α × ℝ)
  shift : ℝ
  detection : Option ℝ
  transform : Option ℝ

/-- `POD._run` (_pod.py 290-348).  `computeBoxCox inputs signals shift` is the external optimiser of
_math_tools.py 87-109 (it may raise).  Input rows and signals travel together as pairs (C02 justifies it). -/
noncomputable def podRun {α G : Type} (fmax : ℝ) (computeBoxCox : List α → List ℝ → ℝ → Res (ℝ × G))
    (obs : List (α × ℝ)) (detection noise sat : Option ℝ) (boxCox censored : Bool) :
    Meth (BoxCoxAttrs G) (RunResult α) := fun st =>
  let obs := if censored then uncensoredObs fmax obs noise sat else obs
  let signals := obs.map Prod.snd
  if boxCox then
    match boxCoxShift signals with
    | .error e => (.error e, st)
    | .ok shift =>
      match computeBoxCox (obs.map Prod.fst) signals shift with
      | .error e => (.error e, st)
      | .ok (lam, graph) =>
        let st' : BoxCoxAttrs G := { lambda := some lam, graph := some graph }
        match boxCoxSample lam (signals.map (· + shift)) with
        | .error e => (.error e, st')
        | .ok signals' =>
          -- the transformed thresholds are computed (and may raise) but are not returned
          match boxCoxThreshold lam shift (if censored then noise else none) with
          | .error e => (.error e, st')
          | .ok _ =>
            match boxCoxThreshold lam shift (if censored then sat else none) with
            | .error e => (.error e, st')
            | .ok _ =>
              match detection with
              | none => (.error ⟨.typeError, ""⟩, st')
              | some d =>
                match boxCoxTransform lam (d + shift) with
                | .error e => (.error e, st')
                | .ok d' => (.ok ⟨(obs.map Prod.fst).zip signals', shift, some d', some lam⟩, st')
  else (.ok ⟨obs, 0, detection, none⟩, { st with lambda := none })

/-- Box-Cox part of `UnivariateLinearModelAnalysis._run` (_univariate_linear_model_analysis.py 211-236):
the parameter is optimised only when none was given. -/
noncomputable def analysisBoxCox {α G : Type} (computeBoxCox : List α → List ℝ → ℝ → Res (ℝ × G))
    (obs : List (α × ℝ)) (boxCox : Bool) : Meth (BoxCoxAttrs G) (List ℝ) := fun st =>
  let signals := obs.map Prod.snd
  if boxCox then
    match boxCoxShift signals with
    | .error e => (.error e, st)
    | .ok shift =>
      match st.lambda with
      | some lam => (boxCoxSample lam (signals.map (· + shift)), st)
      | none =>
        match computeBoxCox (obs.map Prod.fst) signals shift with
        | .error e => (.error e, st)
        | .ok (lam, graph) =>
          (boxCoxSample lam (signals.map (· + shift)), { lambda := some lam, graph := some graph })
  else (.ok signals, st)

/-- Data on which a metamodel POD is built, as fixed by its constructor (e.g. _kriging_pod.py 117-140, with
`boxCox=False`): the size assertion concerns the data before filtering; then `_run` filters; then
`getMin` of the filtered inputs raises when nothing is left. -/
noncomputable def metamodelData (fmax : ℝ) (c : PodClass) (inDim : ℕ) (obs : List (List ℝ × ℝ))
    (noise sat : Option ℝ) : Res (List (List ℝ × ℝ)) :=
  match subclassInit c ⟨obs.length, inDim, obs.length, 1, noise, sat, .other false⟩ with
  | .error e => .error e
  | .ok st =>
    let r := if st.censored then uncensoredObs fmax obs noise sat else obs
    if r = [] then .error ⟨.runtime, ""⟩ else .ok r

/-! ## Detection size -/

/-- Python `int(x)` on a real number: truncation toward zero. -/
noncomputable def pyInt (x : ℝ) : ℤ := if 0 ≤ x then ⌊x⌋ else ⌈x⌉

/-- `"a" + str(int(p * 100))` (line 124), on exact numbers. -/
noncomputable def labelP (p : ℝ) : String := "a" ++ toString (pyInt (p * 100))

/-- `"a" + str(int(p*100)) + "/" + str(int(c*100))` (lines 139-144). -/
noncomputable def labelPC (p c : ℝ) : String :=
  "a" ++ toString (pyInt (p * 100)) ++ "/" ++ toString (pyInt (c * 100))

/-- `POD._computeDetectionSize` (_pod.py 84-148).  `solve f v a b` is `ot.Brent().solve`.  The curves are
total functions here; `probabilityLevel = None` fails in the comparison of line 114 (TypeError).  The result
is the list of sizes with its description. -/
noncomputable def computeDetectionSize (solve : (ℝ → ℝ) → ℝ → ℝ → ℝ → ℝ) (dataMin dataMax : ℝ)
    (model : ℝ → ℝ) (modelCl : Option (ℝ → ℝ)) (probabilityLevel confidenceLevel : Option ℝ)
    (defectMin defectMax : Option ℝ) : Res (List ℝ × List String) :=
  let a := defectMin.getD dataMin
  let b := defectMax.getD dataMax
  match probabilityLevel with
  | none => .error ⟨.typeError, ""⟩
  | some p =>
    if ¬ (model a ≤ p ∧ p ≤ model b) then
      .error ⟨.exception, "The POD model does not contain, for the given defect interval, the wanted probability level."⟩
    else
      let d := solve model p a b
      match confidenceLevel with
      | none => .ok ([d], [labelP p])
      | some c =>
        match modelCl with
        | none => .error ⟨.typeError, ""⟩
        | some mc =>
          if ¬ (mc a ≤ p ∧ p ≤ mc b) then
            .error ⟨.exception, "The POD model at the confidence level does not contain, for the given defect interval, the wanted probability level."⟩
          else .ok ([d, solve mc p a b], [labelP p, labelPC p c])

/-! ## Labels on binary floating-point numbers -/

/-- Rounding of a positive rational to 53 significant bits, half to even (IEEE double, no overflow or
subnormals). -/
def roundDouble (q : ℚ) : ℚ :=
  let e : ℤ := Int.log 2 q - 52
  let s : ℚ := q / 2 ^ e
  let f : ℤ := ⌊s⌋
  let r : ℚ := s - f
  let m : ℤ := if r < 1 / 2 then f else if 1 / 2 < r then f + 1 else if f % 2 = 0 then f else f + 1
  m * 2 ^ e

/-- `int(p * 100)` when `p` is the double nearest to the decimal `k/100`: the product is rounded to a
double before `int` truncates it. -/
def labelDouble (k : ℕ) : ℤ := ⌊roundDouble (roundDouble (k / 100) * 100)⌋

/-! ## Validation graph limits -/

/-- Axis limits `_min`, `_max` of `POD._drawValidationGraph` (_pod.py 279-280). -/
noncomputable def validationLimits (target prediction : List ℝ) : Res (ℝ × ℝ) :=
  match sampleMin (target ++ prediction), sampleMax (target ++ prediction) with
  | .ok mn, .ok mx => .ok (0.99 * mn, 1.01 * mx)
  | _, _ => .error ⟨.valueError, ""⟩

end Verif.Model
