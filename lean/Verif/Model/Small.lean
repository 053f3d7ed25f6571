import Verif.Py.Basic
import Verif.Py.Val
import Verif.Py.Round

/-!
# Progress bar, documentation decorator, type-checked setters

Models of /repo/otpod/_progress_bar.py, /repo/otpod/_decorator.py and of the setters that check the type of their argument.
-/

namespace Verif.Model
open Verif.Py

/-! ## Progress bar -/

/-- What one call writes: number of `=` and of `-` in the bar, percentage, and whether the status is `Done`. -/
structure BarText where
  filled : ℤ
  empty : ℤ
  percent : ℝ
  done : Bool

/-- `updateProgress`, _progress_bar.py 26-43 (`none`: nothing is written).  Real instead of floating point division;
dividing by zero raises.  `"=" * n` is empty for negative `n`, hence the `max`. -/
noncomputable def updateProgress (i nIter nFlush barLength : ℕ) : Res (Option BarText) :=
  let nFlush' := if nIter < nFlush then nIter else nFlush
  if nFlush' = 0 then .error ⟨.zeroDivision, "float division by zero"⟩
  else
    let everyCheck := pyRound ((nIter : ℝ) / nFlush')
    if everyCheck = 0 then .error ⟨.zeroDivision, "integer modulo by zero"⟩
    else if ((i : ℤ) + 1) % everyCheck = 0 ∨ i + 1 = nIter then
      let progress := ((i : ℝ) + 1) / nIter
      let done := decide (1 ≤ progress)
      let progress' := if 1 ≤ progress then 1 else progress
      let block := pyRound (barLength * progress')
      .ok (some ⟨max block 0, max (barLength - block) 0, progress' * 100, done⟩)
    else .ok none

/-! ## `DocInherit` -/

/-- A class hierarchy as seen by the decorator on one method name: classes are numbers, `mro c` is `c.__mro__`, and
`doc c` is the docstring of the underscored method if the class itself defines it. -/
structure Hierarchy where
  mro : ℕ → List ℕ
  doc : ℕ → Option String

/-- First definition in a list of classes. -/
def firstDoc (doc : ℕ → Option String) : List ℕ → Option String
  | [] => none
  | c :: cs => match doc c with
    | some d => some d
    | none => firstDoc doc cs

/-- `getattr(c, name, None)`. -/
def classAttr (h : Hierarchy) (c : ℕ) : Option String := firstDoc h.doc (h.mro c)

/-- `getattr(super(cls, obj), name, None)` where `cls` is the class of `obj`. -/
def superAttr (h : Hierarchy) (c : ℕ) : Option String := firstDoc h.doc (h.mro c).tail

/-- `use_parent_doc`, _decorator.py 70-74. -/
def useParentDoc : Option String → Res String
  | none => .error ⟨.nameError, "Can't find in parents"⟩
  | some d => .ok d

/-- Access through an instance, _decorator.py 43-52. -/
def docWithInst (h : Hierarchy) (c : ℕ) : Res String := useParentDoc (superAttr h c)

/-- The loop of lines 56-59: the variable keeps the value of the last parent examined (methods are true in a condition). -/
def docLoop (h : Hierarchy) : List ℕ → Option String
  | [] => none
  | p :: ps => match classAttr h p with
    | some d => some d
    | none => docLoop h ps

/-- Access through the class, _decorator.py 54-67. -/
def docNoInst (h : Hierarchy) (c : ℕ) : Res String := useParentDoc (docLoop h (h.mro c).tail)

/-! ## Setters -/

/-- `setVerbose`, _kriging_tools.py 369-381; same text in _polynomial_chaos_pod.py 643-655, _adaptive_hitmiss_pod.py
804-816, _pod_summary.py 278-290, _quantile_regression_pod.py 456-468 and _univariate_linear_model_pod.py 343-355. -/
def setVerbose (v : PyVal) : Meth Bool Unit := fun s =>
  match v with
  | .bool b => (.ok (), b)
  | _ => (.error ⟨.typeError, "The parameter is not a bool."⟩, s)

/-- Attributes written by `setGraphActive`. -/
structure GraphAttrs where
  graph : Bool
  probabilityLevel : Option ℝ
  confidenceLevel : Option ℝ
  directory : Option String

/-- `setGraphActive`, _adaptive_signal_pod.py 503-530, _adaptive_hitmiss_pod.py 663-690. -/
def setGraphActive (graphVerbose : PyVal) (p c : Option ℝ) (directory : PyVal) : Meth GraphAttrs Unit := fun s =>
  match graphVerbose with
  | .bool g =>
    match directory with
    | .str d => (.ok (), ⟨g, p, c, some d⟩)
    | .none => (.ok (), ⟨g, p, c, none⟩)
    | _ => (.error ⟨.typeError, "The parameter 'directory' is not a string."⟩, s)
  | _ => (.error ⟨.typeError, "The parameter 'graphVerbose' is not a bool."⟩, s)

/-- `SobolIndices.setSensitivityMethod`, _sobol_indices.py 354-370 (`in` on a list of strings is false for any other
object). -/
def setSensitivityMethod (v : PyVal) : Meth String Unit := fun s =>
  match v with
  | .str m =>
    if m ∈ ["Saltelli", "Jansen", "Martinez", "MauntzKucherenko"] then (.ok (), m)
    else (.error ⟨.attributeError, "The sensitivity method is not known"⟩, s)
  | _ => (.error ⟨.attributeError, "The sensitivity method is not known"⟩, s)

/-- An argument of `setDistribution`: a joint distribution of some dimension (with its identity), or anything else. -/
inductive DistArg
  | joint (dim : ℕ) (id : ℕ)
  | other (v : PyVal)
  deriving DecidableEq

/-- `setDistribution` of the POD classes: _kriging_tools.py 270-281, _polynomial_chaos_pod.py 494-505,
_adaptive_hitmiss_pod.py 751-762. -/
def setDistributionPOD (a : DistArg) : Meth (Option DistArg) Unit := fun s =>
  match a with
  | .joint d i => (.ok (), some (.joint d i))
  | .other _ => (.error ⟨.valueError, "The given parameter is not a JointDistribution"⟩, s)

/-- `setDistribution` of the sensitivity classes: _sobol_indices.py 407-423, _pli_pod.py 207-223.  `dim`: `self._dim`. -/
def setDistributionSens (dim : ℕ) (a : DistArg) : Meth (Option DistArg) Unit := fun s =>
  match a with
  | .other _ => (.error ⟨.valueError, "The given parameter is not a JointDistribution"⟩, s)
  | .joint d i =>
    if d ≠ dim then (.error ⟨.attributeError, "The dimension of the distribution must be"⟩, s)
    else (.ok (), some (.joint d i))

end Verif.Model
