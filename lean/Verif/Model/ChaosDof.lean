import Verif.Model.Metamodel
import Verif.Py.Float
import Mathlib.Analysis.Real.Sqrt

/-!
# The run of the chaos POD with its degrees of freedom

/repo/otpod/_polynomial_chaos_pod.py 159-215.  The numbers computed from the standard error are of type `F ℝ`: numpy divides by zero and
takes square roots of negative numbers without an exception.
-/

namespace Verif.Model
open Verif.Py

/-- `np.sqrt`: NaN below zero. -/
noncomputable def npSqrt : F ℝ → F ℝ
  | .nan => .nan
  | .ninf => .nan
  | .pinf => .pinf
  | .fin x => if x < 0 then .nan else .fin (Real.sqrt x)

/-- `_stderr` (lines 179-181): `np.sqrt(np.sum(residuals ** 2) / (inputSize - basisSize - 1))`. -/
noncomputable def chaosStderrF (inputSize basisSize : ℕ) (ssr : ℝ) : F ℝ :=
  npSqrt (F.div (.fin ssr) (.fin ((inputSize : ℝ) - basisSize - 1)))

/-- `np.mean(column > detection)` for IEEE numbers. -/
noncomputable def fracAboveF (det : ℝ) (col : List (F ℝ)) : ℝ :=
  (col.countP (fun y => F.lt (.fin det) y) : ℝ) / col.length

/-- `_computePOD` (lines 744-774) for one defect size: `values` are the metamodel values of the sample, `z` the normal deviates. -/
noncomputable def chaosPodF (det : ℝ) (stderr : F ℝ) (values z : List ℝ) : ℝ :=
  fracAboveF det (List.zipWith (fun v zi => F.add (.fin v) (F.mul (.fin zi) stderr)) values z)

/-- What a run writes: `POD` (with the interpolating `_PODmodel`, lines 191-195) and `_PODPerDefect` (lines 211-215). -/
structure ChaosPodState where
  pod : Option (List ℝ)
  perDefect : Option (List (List ℝ))

/-- `ot.ChiSquare(nu)`: InvalidArgumentException (a TypeError in Python) unless `nu > 0`; `draw` is the realisation of the law built
from it. -/
def chiSquareDraw (draw : ℤ → ℝ) (nu : ℤ) : Res ℝ :=
  if nu ≤ 0 then .error ⟨.typeError, "Nu MUST be positive"⟩ else .ok (draw nu)

/-- `run` (lines 159-215) after the fit of the metamodel.  `cols` gives for each defect size the metamodel values and the deviates of the
first simulation, `simulated v` the columns for each vector of coefficients drawn with residual variance `v`. -/
noncomputable def chaosRunDof (inputSize basisSize : ℕ) (ssr det : ℝ) (draw : ℤ → ℝ) (cols : List (List ℝ × List ℝ))
    (simulated : ℝ → List (List (List ℝ × List ℝ))) : Meth ChaosPodState Unit := fun s =>
  let stderr := chaosStderrF inputSize basisSize ssr
  let s := { s with pod := some (cols.map fun c => chaosPodF det stderr c.1 c.2) }
  let dof : ℤ := inputSize - basisSize - 1
  match chiSquareDraw draw dof with
  | .error e => (.error e, s)
  | .ok v => (.ok (), { s with perDefect := some ((simulated v).map fun cs => cs.map fun c => chaosPodF det stderr c.1 c.2) })

/-- `getPODModel` (line 218-228) read at the defect sizes: AttributeError while the attribute does not exist. -/
def chaosGetPod : Meth ChaosPodState (List ℝ) := fun s =>
  match s.pod with
  | none => (.error ⟨.attributeError, "'PolynomialChaosPOD' object has no attribute '_PODmodel'"⟩, s)
  | some p => (.ok p, s)

end Verif.Model
