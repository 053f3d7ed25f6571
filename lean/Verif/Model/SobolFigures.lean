import Verif.Model.Sobol
import Verif.Model.SobolMethods
import Verif.Model.Small

/-!
# Figures and result of the Sobol analysis

/repo/otpod/_sobol_indices.py 99-341.  The attributes read by the figures: sizes, method, last sensitivity algorithm (the method it was
created with and the output design it received).
-/

namespace Verif.Model
open Verif.Py

/-- The attributes of `SobolIndices`; `saMethod`: the class of the algorithm stored in `_sa`.  `__init__` 96-97: "Saltelli" and `None`. -/
structure SobolAn extends SobolSt where
  method : String := "Saltelli"
  saMethod : Option String := none

/-- `SobolIndices.run`, lines 99-169: the part of `sobolRun`, then the dispatch on the method.  With an unknown method no algorithm is created and
line 169 is applied to the previous one (`None` on a first run). -/
noncomputable def sobolAnRun (observed : List ℝ) (N : ℕ) (design : List ℝ → List (List ℝ)) : Meth SobolAn Unit := fun s =>
  match sobolRun observed N design s.toSobolSt with
  | (.error e, t) => (.error e, { s with toSobolSt := t })
  | (.ok _, t) =>
    if s.method ∈ ["Saltelli", "Martinez", "Jansen", "MauntzKucherenko"] then
      (.ok (), { s with toSobolSt := t, saMethod := some s.method })
    else
      match s.sa with
      | none => (.error ⟨.attributeError, "'NoneType' object has no attribute 'setUseAsymptoticDistribution'"⟩,
          { s with toSobolSt := { t with sa := s.sa } })
      | some _ => (.ok (), { s with toSobolSt := { t with sa := s.sa } })

/-- Calls of the user. -/
inductive SobolAnOp
  | setSizes (arg : List ℝ)
  | setMethod (v : PyVal)
  | run (N : ℕ) (design : List ℝ → List (List ℝ))

/-- One call: `setDefectSizes` (372-393), `setSensitivityMethod` (354-370), `run` (99-169). -/
noncomputable def sobolAnStep (observed : List ℝ) (s : SobolAn) : SobolAnOp → Res Unit × SobolAn
  | .setSizes arg => let (r, t) := sobolSetSizes observed arg s.toSobolSt; (r, { s with toSobolSt := t })
  | .setMethod v => let (r, m) := setSensitivityMethod v s.method; (r, { s with method := m })
  | .run N design => sobolAnRun observed N design s

/-- A history of calls; exceptions are caught by the user. -/
noncomputable def sobolAnHistory (observed : List ℝ) (ops : List SobolAnOp) (s : SobolAn) : SobolAn :=
  ops.foldl (fun s op => (sobolAnStep observed s op).2) s

/-- `getSensitivityResult`, lines 171-182: the algorithm (its class, its output design). -/
def getSensitivityResult (s : SobolAn) : Res (Option String × List (List ℝ)) :=
  match s.sa with
  | none => .error ⟨.exception, "The run method must launched first."⟩
  | some cols => .ok (s.saMethod, cols)

/-- The labels, lines 203-209 and 289-295.  `raise AttributeError("…").format(…)` looks up `format` on the exception: an AttributeError too. -/
def sobolLabels (dim : ℕ) (label : Option (List String)) : Res (List String) :=
  match label with
  | none => .ok ((List.range dim).map fun i => "X" ++ toString i)
  | some l =>
    if l.length ≠ dim then .error ⟨.attributeError, "'AttributeError' object has no attribute 'format'"⟩ else .ok l

/-- The two kinds of figures, lines 244 and 267. -/
inductive SobolOrder
  | first
  | total

/-- The list of indices added for a size, lines 302-305. -/
def SobolOrder.pick : SobolOrder → List ℝ × List ℝ → List ℝ
  | .first, v => v.1
  | .total, v => v.2

/-- The title, lines 327-334. -/
def sobolTitle : SobolOrder → String → String
  | .first, m => "First order sensitivity indices - " ++ m ++ " Algorithm"
  | .total, m => "Total order sensitivity indices - " ++ m ++ " Algorithm"

/-- A figure of `_drawIndices`: title, one label per parameter, the plotted sizes with the indices of the parameters, the limits of the ordinate
(line 335). -/
structure SobolFigure where
  title : String
  labels : List String
  points : List (ℝ × List ℝ)
  ylim : ℝ × ℝ

/-- `drawFirstOrderIndices` (224-245) and `drawTotalOrderIndices` (247-268), through `_drawIndices`, lines 270-341.  `est m col`: first and total indices of the parameters for an output
column, by the algorithm `m`; `none` when it fails.  Errors of the algorithm, also of calling a method of `None`, are swallowed
(lines 306-307). -/
noncomputable def drawSobol (est : String → List ℝ → Option (List ℝ × List ℝ)) (order : SobolOrder) (dim : ℕ) (label : Option (List String))
    (s : SobolAn) : Res SobolFigure :=
  match sobolLabels dim label with
  | .error e => .error e
  | .ok l =>
    match sobolDrawn (fun col => (s.saMethod.bind fun m => est m col).map order.pick) s.toSobolSt with
    | .error e => .error e
    | .ok pts => .ok ⟨sobolTitle order s.method, l, pts, (0, 6 / 5)⟩

/-- `drawAggregatedIndices`, lines 184-222: the graph is the one of the algorithm, with its own title. -/
def drawAggregated (dim : ℕ) (label : Option (List String)) (s : SobolAn) : Res (Option String × List String) :=
  match sobolLabels dim label with
  | .error e => .error e
  | .ok l =>
    match s.sa with
    | none => .error ⟨.attributeError, "'NoneType' object has no attribute 'draw'"⟩
    | some _ => .ok (s.saMethod, l)

end Verif.Model
