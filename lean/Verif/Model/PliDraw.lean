import Verif.Model.PliPod
import Verif.Model.Base

/-!
# Confidence intervals and figures of the perturbation law indices

/repo/otpod/_pli.py 305-329 and 342-428, /repo/otpod/_pli_pod.py 357-412.  A figure is modelled by the points it shows.
-/

namespace Verif.Model
open Verif.Py

/-- `computeConfidenceInterval` (_pli.py 305-329).  `dist idelta marginal`: mean and standard deviation of the normal law of the estimator;
`bilateral` is `computeBilateralConfidenceInterval` of OpenTURNS.  One list per marginal, one pair per delta. -/
def pliConfidence (dim nDelta : ℕ) (dist : ℕ → ℕ → ℝ × ℝ) (bilateral : ℝ × ℝ → ℝ → ℝ × ℝ) (level : ℝ) : List (List (ℝ × ℝ)) :=
  (List.range dim).map fun marginal => (List.range nDelta).map fun idelta => bilateral (dist idelta marginal) level

/-- One curve of `drawIndices`: label, points, band. -/
structure PliCurve where
  label : String
  xs : List ℝ
  ys : List (F ℝ)
  band : Option (List (ℝ × ℝ))

/-- Assignment of a float to an element of a numpy array of integers truncates it toward zero. -/
noncomputable def castTo (isInt : Bool) (x : ℝ) : ℝ :=
  if isInt = true then (if 0 ≤ x then (⌊x⌋ : ℝ) else (⌈x⌉ : ℝ)) else x

/-- The abscissas of one marginal (_pli.py 387-399): `np.hstack` of the rows of `_originalDelta` puts the rows one after the other; the first
`nDelta` entries are replaced by the signed distances `hell i` if asked for (`hell i` is the value of `hellingerAbscissa` for delta number `i`). -/
noncomputable def xSupport (rows : List (List ℝ)) (isInt : Bool) (hell : Option (ℕ → ℝ)) : List ℝ :=
  match hell with
  | none => rows.flatten
  | some h => (List.range rows.length).map (fun i => castTo isInt (h i)) ++ rows.flatten.drop rows.length

/-- One pass of the loop of `drawIndices` (_pli.py 379-416); `ax.plot` raises ValueError on lists of different lengths. -/
noncomputable def drawMarginal (rows : List (List ℝ)) (isInt : Bool) (label : String) (hell : Option (ℕ → ℝ)) (index : ℕ → F ℝ)
    (band : Option (List (ℝ × ℝ))) : Res PliCurve :=
  let xs := xSupport rows isInt hell
  if xs.length = rows.length then .ok ⟨label, xs, (List.range rows.length).map index, band⟩
  else .error ⟨.valueError, "x and y must have same first dimension"⟩

/-- The loop over the marginals. -/
noncomputable def drawLoop (f : ℕ → Res PliCurve) : List ℕ → Res (List PliCurve)
  | [] => .ok []
  | m :: ms =>
    match f m with
    | .error e => .error e
    | .ok c =>
      match drawLoop f ms with
      | .error e => .error e
      | .ok cs => .ok (c :: cs)

/-- `drawIndices` (_pli.py 342-428).  `rows`: `_originalDelta`, `isInt`: its dtype is integer; `hell marginal`: signed distances;
`suffix`: the text added to the label for a confidence level (line 381). -/
noncomputable def pliDrawIndices (dim : ℕ) (rows : List (List ℝ)) (isInt : Bool) (label : Option (List String)) (suffix : ℝ → String)
    (conf : Option ℝ) (ci : ℝ → List (List (ℝ × ℝ))) (hell : Option (ℕ → ℕ → ℝ)) (indices : ℕ → ℕ → F ℝ) : Res (List PliCurve) :=
  let names := label.getD ((List.range dim).map fun i => "X" ++ toString i)
  if names.length ≠ dim then .error ⟨.attributeError, "'AttributeError' object has no attribute 'format'"⟩
  else
    drawLoop (fun m => drawMarginal rows isInt
      (match conf with | some c => names.getD m "" ++ suffix c | none => names.getD m "")
      (hell.map fun h => h m) (fun i => indices i m)
      (conf.map fun c => (ci c).getD m [])) (List.range dim)

/-- The contour figure: the bounds of the axes, and the matrix, row = delta, column = kept defect. -/
structure ContourFig where
  xlo : ℝ
  xhi : ℝ
  ylo : ℝ
  yhi : ℝ
  nrow : ℕ
  ncol : ℕ
  z : ℕ → ℕ → F ℝ

/-- Place of column (or row) `j` out of `n` of `ax.contour` with an extent: the first at the lower bound, the last at the upper bound. -/
noncomputable def contourPos (lo hi : ℝ) (n j : ℕ) : ℝ := lo + j * (hi - lo) / ((n : ℝ) - 1)

/-- Cell of column (or row) `j` out of `n` of `ax.imshow` with an extent (origin "lower"): equal widths. -/
noncomputable def imageCell (lo hi : ℝ) (n j : ℕ) : ℝ × ℝ := (lo + j * (hi - lo) / n, lo + (j + 1) * (hi - lo) / n)

/-- `drawContourIndices` (_pli_pod.py 357-412).  `deltas`: all entries of `_delta`.  `np.min` raises ValueError on an empty array;
`ax.contour` raises TypeError on fewer than two rows or columns. -/
noncomputable def drawContour {Obj : Type} (s : PliPod Obj) (deltas : List ℝ) (marginal : ℤ) : Res ContourFig :=
  if marginal > (s.dim : ℤ) - 1 then .error ⟨.attributeError, "The marginal parameter must be in the range"⟩
  else
    match s.kept with
    | none => .error ⟨.attributeError, "_keepedDefect"⟩
    | some kept =>
      if (kept.all fun i => decide (i < s.defectSizes.length)) = false then .error ⟨.indexError, "index out of bounds"⟩
      else
        let sizes := kept.map fun i => s.defectSizes.getD i 0
        match sampleMin sizes, sampleMax sizes, sampleMin deltas, sampleMax deltas with
        | .ok xlo, .ok xhi, .ok ylo, .ok yhi =>
          match resolveIdx s.indices.n1 marginal with
          | .error e => .error e
          | .ok m =>
            if (kept.all fun i => decide (i < s.indices.n2)) = false then .error ⟨.indexError, "index out of bounds"⟩
            else if s.indices.n0 < 2 ∨ kept.length < 2 then .error ⟨.typeError, "Input z must be at least a (2, 2) shaped array"⟩
            else .ok ⟨xlo, xhi, ylo, yhi, s.indices.n0, kept.length, fun i j => s.indices.v i m (kept.getD j 0)⟩
        | _, _, _, _ => .error ⟨.valueError, "zero-size array to reduction operation minimum"⟩

end Verif.Model
