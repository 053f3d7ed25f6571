import Verif.Model.QuantileReg

/-!
# The figure of the Box-Cox likelihood — /repo/otpod/_pod.py 350-387, _univariate_linear_model_analysis.py 824-865

The value is the graph shown; its labels are constants.
-/

namespace Verif.Model
open Verif.Py

/-- `drawBoxCoxLikelihood` (_pod.py 373-387; _univariate_linear_model_analysis.py 851-865): the attribute `_graphBoxCox` does not exist before it is assigned. -/
def drawBoxCoxLikelihood {G : Type} (boxCox : Bool) (st : BoxCoxAttrs G) : Res G :=
  if !boxCox then .error ⟨.exception, "The Box Cox transformation is not enabled."⟩
  else
    match st.graph with
    | none => .error ⟨.attributeError, "_graphBoxCox"⟩
    | some g => .ok g

/-- The attributes after `UnivariateLinearModelPOD.run` (_univariate_linear_model_pod.py 152-169): `_computeLinearModel` (548-625) filters and transforms like
`POD._run`, then fits (`fit`, may raise); the attributes are assigned after it has returned, the graph is `None` without Box-Cox (581). -/
noncomputable def linearBoxCoxRun {G : Type} (fmax : ℝ) (bc : List ℝ → List ℝ → ℝ → Res (ℝ × G)) (fit : RunResult ℝ → Res Unit) (obs : List (ℝ × ℝ)) (det : ℝ)
    (noise sat : Option ℝ) (boxCox cens : Bool) : Meth (BoxCoxAttrs G) Unit := fun st =>
  match podRun fmax bc obs (some det) noise sat boxCox cens ⟨none, none⟩ with
  | (.error e, _) => (.error e, st)
  | (.ok r, st') =>
    match fit r with
    | .error e => (.error e, st)
    | .ok () => (.ok (), st')

/-- The attributes set by the constructors: `_lambdaBoxCox` (_pod.py 31-36; _univariate_linear_model_analysis.py 150-155), no graph. -/
def freshBoxCox {G : Type} (b : BoxCoxArg ℝ) : BoxCoxAttrs G := ⟨(boxCoxInit b).1, none⟩

end Verif.Model
