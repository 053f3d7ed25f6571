import Verif.Model.Small
import Verif.Model.Metamodel

/-!
# Settings and their accessors

The setters and getters of the POD classes and of the sensitivity classes, over one record with all the settings: the text of a setter is the
same in each class that has it, and a class uses a part of the record.  Objects of openturns are values of a type `V`.
-/

namespace Verif.Model
open Verif.Py

/-- The settings that are objects of openturns. -/
inductive ObjKind
  | basis | covariance | adaptive | projection | gaussKronrod
  deriving DecidableEq

/-- The settings of an object. -/
structure Settings (V : Type) where
  samplingSize : PyVal
  initialStartSize : PyVal
  candidateSize : PyVal
  simulationSize : PyVal
  degree : PyVal
  sizes : SizeAttrs
  distribution : Option DistArg
  objects : ObjKind → Option V
  verbose : Bool
  graph : GraphAttrs
  method : String
  active : List (String × Bool)

/-- A call of a setter. -/
inductive SetOp (V : Type)
  | samplingSize (v : PyVal)
  | initialStartSize (v : PyVal)
  | candidateSize (v : PyVal)
  | simulationSize (v : PyVal)
  | degree (v : PyVal)
  | defectSizes (sizes : List ℝ)
  | distribution (a : DistArg)
  | object (k : ObjKind) (v : V)
  | verbose (v : PyVal)
  | graph (g : PyVal) (p c : Option ℝ) (directory : PyVal)
  | method (v : PyVal)
  | active (name : String) (v : PyVal)

/-- The setters of objects of openturns: `setBasis` (_kriging_tools.py 298-311), `setCovarianceModel` (328-341), `setAdaptiveStrategy`
(_polynomial_chaos_pod.py 522-535), `setProjectionStrategy` (551-564), `setGaussKronrod` (_pli.py 558-570, _pli_pod.py 243-255).  `ctor k v` is the
outcome of the constructor of the class of openturns on the argument: only `NotImplementedError` is caught. -/
def setObject {V : Type} (ctor : ObjKind → V → Option ErrKind) (k : ObjKind) (v : V) : Meth (Settings V) Unit := fun s =>
  match ctor k v with
  | none => (.ok (), { s with objects := fun j => if j = k then some v else s.objects j })
  | some .notImplemented =>
    if k = .gaussKronrod then (.error ⟨.attributeError, "The parameter must be a GaussKronrod algorithm."⟩, s)
    else (.error ⟨.exception, "The given parameter is not a"⟩, s)
  | some e => (.error ⟨e, ""⟩, s)

/-- `PODSummary.setMethodActive` (_pod_summary.py 249-265). -/
def setActive (name : String) (v : PyVal) : Meth (List (String × Bool)) Unit := fun d =>
  if name ∉ d.map Prod.fst then (.error ⟨.nameError, name ++ " is not an admissible keys."⟩, d)
  else
    match v with
    | .bool b => (.ok (), d.map fun e => if e.1 = name then (e.1, b) else e)
    | _ => (.error ⟨.valueError, "The given activation parameter is not a boolean."⟩, d)

/-- A setter of one attribute, on the whole record. -/
def onField {V α : Type} (get : Settings V → α) (put : Settings V → α → Settings V) (m : Meth α Unit) : Meth (Settings V) Unit := fun s =>
  ((m (get s)).1, put s (m (get s)).2)

/-- One call of a setter.  `observed`: first column of the input sample.  `dim`: `none` in the POD classes, whose `setDistribution` does not check the
dimension, `some self._dim` in the sensitivity classes.  The setters of sizes and of the degree store their argument: `setSamplingSize`
(_kriging_tools.py 199-209, _polynomial_chaos_pod.py 447-457, _adaptive_hitmiss_pod.py 704-714, _pli_pod.py 195-205, _pod_summary.py 430-440),
`setInitialStartSize` (_kriging_tools.py 223-233), `setCandidateSize` (_adaptive_signal_pod.py 480-489, _adaptive_hitmiss_pod.py 640-649),
`setSimulationSize` (_pod.py 69-78, _pod_summary.py 303-312, _sobol_indices.py 448-458), `setDegree` (_polynomial_chaos_pod.py 580-589). -/
noncomputable def setStep {V : Type} (observed : List ℝ) (dim : Option ℕ) (ctor : ObjKind → V → Option ErrKind) :
    SetOp V → Meth (Settings V) Unit
  | .samplingSize v => fun s => (.ok (), { s with samplingSize := v })
  | .initialStartSize v => fun s => (.ok (), { s with initialStartSize := v })
  | .candidateSize v => fun s => (.ok (), { s with candidateSize := v })
  | .simulationSize v => fun s => (.ok (), { s with simulationSize := v })
  | .degree v => fun s => (.ok (), { s with degree := v })
  | .defectSizes l => onField (·.sizes) (fun s a => { s with sizes := a }) (setDefectSizes observed l)
  | .distribution a => onField (·.distribution) (fun s a => { s with distribution := a })
      (match dim with
        | none => setDistributionPOD a
        | some d => setDistributionSens d a)
  | .object k v => setObject ctor k v
  | .verbose v => onField (·.verbose) (fun s a => { s with verbose := a }) (setVerbose v)
  | .graph g p c d => onField (·.graph) (fun s a => { s with graph := a }) (setGraphActive g p c d)
  | .method v => onField (·.method) (fun s a => { s with method := a }) (setSensitivityMethod v)
  | .active n v => onField (·.active) (fun s a => { s with active := a }) (setActive n v)

/-- The settings after a history of calls, each exception being caught by the caller. -/
noncomputable def setHistory {V : Type} (observed : List ℝ) (dim : Option ℕ) (ctor : ObjKind → V → Option ErrKind) (ops : List (SetOp V))
    (s : Settings V) : Settings V :=
  ops.foldl (fun s o => (setStep observed dim ctor o s).2) s

/-! ## Getters -/

/-- `getSamplingSize` (_kriging_tools.py 187-197, _polynomial_chaos_pod.py 435-445, _adaptive_hitmiss_pod.py 692-702, _pli_pod.py 183-193,
_pod_summary.py 314-324). -/
def getSamplingSize {V : Type} (s : Settings V) : PyVal := s.samplingSize

/-- `getInitialStartSize` (_kriging_tools.py 211-221). -/
def getInitialStartSize {V : Type} (s : Settings V) : PyVal := s.initialStartSize

/-- `getCandidateSize` (_adaptive_signal_pod.py 469-478, _adaptive_hitmiss_pod.py 629-638). -/
def getCandidateSize {V : Type} (s : Settings V) : PyVal := s.candidateSize

/-- `getSimulationSize` (_pod.py 58-67, _pod_summary.py 292-301, _sobol_indices.py 437-446). -/
def getSimulationSize {V : Type} (s : Settings V) : PyVal := s.simulationSize

/-- `getDegree` (_polynomial_chaos_pod.py 591-600). -/
def getDegree {V : Type} (s : Settings V) : PyVal := s.degree

/-- `getDefectSizes` (_kriging_tools.py 235-245, _polynomial_chaos_pod.py 459-469, _adaptive_hitmiss_pod.py 716-726, _sobol_indices.py 395-405,
_pli_pod.py 171-181). -/
def getDefectSizes {V : Type} (s : Settings V) : List ℝ := s.sizes.sizes

/-- `getVerbose` (_kriging_tools.py 358-367, _polynomial_chaos_pod.py 632-641, _adaptive_hitmiss_pod.py 793-802, _pod_summary.py 267-276). -/
def getVerbose {V : Type} (s : Settings V) : Bool := s.verbose

/-- `getGraphActive` (_adaptive_signal_pod.py 491-501, _adaptive_hitmiss_pod.py 651-661). -/
def getGraphActive {V : Type} (s : Settings V) : Bool := s.graph.graph

/-- `getSensitivityMethod` (_sobol_indices.py 343-352). -/
def getSensitivityMethod {V : Type} (s : Settings V) : String := s.method

/-- `getMethodActive()[name]` (_pod_summary.py 237-247). -/
def getMethodActive {V : Type} (s : Settings V) (name : String) : Option Bool := s.active.lookup name

/-- What a getter that may print a message returns and prints. -/
structure Shown (α : Type) where
  value : Option α
  message : Option String
  deriving DecidableEq

/-- The getters that print a message when there is nothing to return. -/
def getOrPrint {α : Type} : Option α → Shown α
  | none => ⟨none, some "The run method must be launched first."⟩
  | some a => ⟨some a, none⟩

/-- `getDistribution` of the POD classes (_kriging_tools.py 283-296, _polynomial_chaos_pod.py 507-520, _adaptive_hitmiss_pod.py 764-777). -/
def getDistributionPOD {V : Type} (s : Settings V) : Shown DistArg := getOrPrint s.distribution

/-- `getDistribution` of the sensitivity classes (_sobol_indices.py 425-435, _pli_pod.py 225-235). -/
def getDistributionSens {V : Type} (s : Settings V) : Option DistArg := s.distribution

/-- `getBasis` (_kriging_tools.py 313-326), `getCovarianceModel` (343-356), `getAdaptiveStrategy` (_polynomial_chaos_pod.py 537-549),
`getProjectionStrategy` (566-578). -/
def getObject {V : Type} (k : ObjKind) (s : Settings V) : Shown V := getOrPrint (s.objects k)

/-- `getGaussKronrod` (_pli.py 552-556, _pli_pod.py 237-241). -/
def getGaussKronrod {V : Type} (s : Settings V) : Option V := s.objects .gaussKronrod

end Verif.Model
