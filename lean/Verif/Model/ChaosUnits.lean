import Verif.Model.ChaosFit
import Verif.Model.DefaultDist

/-!
# The transformation of the inputs of the chaos model — /repo/otpod/_polynomial_chaos_pod.py 172 and 672-681
-/

namespace Verif.Model
open Verif.Py

/-- `StandardDistributionPolynomialFactory(Uniform(a, b))` (688-690): the polynomials are those of Uniform(-1, 1), so a coordinate is
mapped affinely from `[a, b]` to `[-1, 1]`. -/
noncomputable def standardCoord (m : ℝ × ℝ) (x : ℝ) : ℝ := (2 * x - m.1 - m.2) / (m.2 - m.1)

/-- `chaosResult.getTransformation()` (line 172) for independent uniform marginals `ms`: coordinate by coordinate; the first coordinate is the
defect. -/
noncomputable def uniformTransformation (ms : List (ℝ × ℝ)) (p : ℝ × List ℝ) : List ℝ := List.zipWith standardCoord ms (p.1 :: p.2)

end Verif.Model
