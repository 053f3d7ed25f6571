import Verif.Model.Criterion

/-!
# The POD figure and the graph option of the adaptive run

`POD._drawPOD` (/repo/otpod/_pod.py 150-250), `drawPOD` of the metamodel classes (_kriging_tools.py 78-145) and the use of `drawPOD`
in the enrichment loop (_adaptive_signal_pod.py 398-424).
-/

namespace Verif.Model
open Verif.Py

/-- What is drawn: the interval of the curves, the curves in order, the height of the horizontal line, and the vertical lines
(abscissa and height; they start from 0).  Colours and texts are left out (labels: C17). -/
structure PodFigure where
  lo : ℝ
  hi : ℝ
  curves : List (ℝ → ℝ)
  hline : Option ℝ
  marks : List (ℝ × ℝ)

/-- `POD._drawPOD` (_pod.py 185-250).  `detSize` is the method `self.computeDetectionSize` of the object (line 220).
The curve at the confidence level is drawn when a level is given (`None.draw` raises AttributeError). -/
noncomputable def basePodFigure (dataMin dataMax : ℝ) (detSize : ℝ → Option ℝ → Res (List ℝ × List String))
    (model : ℝ → ℝ) (modelCl : Option (ℝ → ℝ)) (probabilityLevel confidenceLevel : Option ℝ)
    (defectMin defectMax : Option ℝ) : Res PodFigure :=
  let lo := defectMin.getD dataMin
  let hi := defectMax.getD dataMax
  match confidenceLevel, modelCl with
  | some _, none => .error ⟨.attributeError, ""⟩
  | _, _ =>
    let curves := match confidenceLevel, modelCl with
      | some _, some mc => [model, mc]
      | _, _ => [model]
    match probabilityLevel with
    | none => .ok ⟨lo, hi, curves, none, []⟩
    | some p =>
      match detSize p confidenceLevel with
      | .error e => .error e
      | .ok (ds, _) =>
        match ds[0]? with
        | none => .error ⟨.indexError, ""⟩
        | some d0 =>
          match confidenceLevel with
          | none => .ok ⟨lo, hi, curves, some p, [(d0, p)]⟩
          | some _ =>
            match ds[1]? with
            | none => .error ⟨.indexError, ""⟩
            | some d1 => .ok ⟨lo, hi, curves, some p, [(d0, p), (d1, p)]⟩

/-- `KrigingBase.computeDetectionSize` (_kriging_tools.py 59-77): the search interval is the range of the defect sizes
`[sMin, sMax]`; `modelCl c` is the curve at the confidence level `c`. -/
noncomputable def sizesDetection (solve : (ℝ → ℝ) → ℝ → ℝ → ℝ → ℝ) (dataMin dataMax sMin sMax : ℝ) (model : ℝ → ℝ)
    (modelCl : ℝ → ℝ → ℝ) (p : ℝ) (c : Option ℝ) : Res (List ℝ × List String) :=
  computeDetectionSize solve dataMin dataMax model (c.map modelCl) (some p) c (some sMin) (some sMax)

/-- `KrigingBase.drawPOD` (_kriging_tools.py 81-145; same text in _polynomial_chaos_pod.py and _adaptive_hitmiss_pod.py): bounds, then the
figure. -/
noncomputable def sizesDraw (solve : (ℝ → ℝ) → ℝ → ℝ → ℝ → ℝ) (dataMin dataMax : ℝ) (sizes : List ℝ) (model : ℝ → ℝ)
    (modelCl : ℝ → ℝ → ℝ) (p c dmin dmax : Option ℝ) : Res PodFigure :=
  match drawBounds sizes dmin dmax, sampleMin sizes, sampleMax sizes with
  | .ok (lo, hi), .ok sMin, .ok sMax =>
    basePodFigure dataMin dataMax (sizesDetection solve dataMin dataMax sMin sMax model modelCl) model (c.map modelCl) p c
      (some lo) (some hi)
  | .error e, _, _ => .error e
  | _, _, _ => .error ⟨.valueError, ""⟩

/-- `UnivariateLinearModelPOD.drawPOD` (_univariate_linear_model_pod.py 281-330): no check of the bounds, which default to the range of the
input sample; `computeDetectionSize` (273-279) searches in that range. -/
noncomputable def linearFigure (solve : (ℝ → ℝ) → ℝ → ℝ → ℝ → ℝ) (defects : List ℝ) (model : ℝ → ℝ)
    (modelCl : ℝ → ℝ → ℝ) (p c dmin dmax : Option ℝ) : Res PodFigure :=
  match sampleMin defects, sampleMax defects with
  | .ok mn, .ok mx =>
    basePodFigure mn mx (fun q l => computeDetectionSize solve mn mx model (l.map modelCl) (some q) l none none) model
      (c.map modelCl) p c dmin dmax
  | _, _ => .error ⟨.valueError, ""⟩

/-- The enrichment loop with the graph block of lines 398-424 at the end of each iteration.  `draw it s` is the call
`self.drawPOD(self._probabilityLevel, self._confidenceLevel)` of iteration `it`; showing and saving the figure is left out. -/
noncomputable def adLoopG {X M : Type} (env : AdEnv X M) (draw : ℕ → AdAttrs X M → Res PodFigure) (ref : M) :
    ℕ → ℕ → List X → Option ℕ → M → Meth (AdAttrs X M) M
  | 0, _, _, _, m => fun s => (.ok m, s)
  | n + 1, it, cand, idx, m => fun s =>
    match adIter env ref it cand idx m s with
    | (.error e, s') => (.error e, s')
    | (.ok (cand', idx', m'), s') =>
      match draw it s' with
      | .error e => (.error e, s')
      | .ok _ => adLoopG env draw ref n (it + 1) cand' idx' m' s'

/-- `AdaptiveSignalPOD.run` with the flag `_graph` (`setGraphActive`). -/
noncomputable def adRunG {X M : Type} (env : AdEnv X M) (graph : Bool) (draw : ℕ → AdAttrs X M → Res PodFigure)
    (cands : List X) (n : ℕ) : Meth (AdAttrs X M) M := fun s =>
  match env.fit s.input s.signals with
  | .error e => (.error e, s)
  | .ok m0 =>
    if graph then adLoopG env draw m0 n 0 cands none m0 { s with model := some m0 }
    else adLoop env m0 n 0 cands none m0 { s with model := some m0 }

end Verif.Model
