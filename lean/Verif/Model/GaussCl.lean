import Verif.Model.LinearPOD
import Verif.Model.ResidualVar
import Verif.Model.Figure

/-!
# Confidence curve of the Gaussian linear POD — /repo/otpod/_univariate_linear_model_pod.py

The random draws are parameters: `z k` is row `k` of `sampleNormal`, `chi k` the draw of the Chi law behind row `k` of
`sampleSigmaEpsilon`.
-/

namespace Verif.Model
open Verif.Py

/-- One row of `sampleSigmaEpsilon` (439-441): a draw of `ot.Chi(N - 2).inverse() * np.sqrt(N - 2) * stderr`. -/
noncomputable def sigmaDraw (n : ℕ) (stderr chi : ℝ) : ℝ := 1 / chi * Real.sqrt ((n : ℝ) - 2) * stderr

/-- `_PODgaussModelCl` (418-455): the list `PODcoll`. -/
noncomputable def gaussColl (n : ℕ) (intercept slope stderr detection : ℝ) (z : ℕ → Fin 2 → ℝ) (chi : ℕ → ℝ)
    (simulationSize : ℕ) : List (ℝ → ℝ) :=
  (List.range simulationSize).map fun k a =>
    gaussCurve intercept slope detection (z k 0) (z k 1) (sigmaDraw n stderr (chi k)) a

/-- `getPODCLModel(confidenceLevel)` evaluated at `a` after `run` with `NormalFactory` on a data set without Box-Cox and without
censoring (189-211, 246-256). -/
noncomputable def gaussClOf {n : ℕ} (x y : Fin n → ℝ) (detection : ℝ) (z : ℕ → Fin 2 → ℝ) (chi : ℕ → ℝ) (simulationSize : ℕ)
    (confidenceLevel a : ℝ) : Res ℝ :=
  podClFromCollection simulationSize
    (gaussColl n (olsIntercept x y) (olsSlope x y) (linearStderr x y) detection z chi simulationSize) confidenceLevel a

/-- `computeDetectionSize(probabilityLevel, confidenceLevel)` (level `None` allowed) after `run` with `NormalFactory` on such a data set (273-279): the search
interval is the range of the defects.  `solve` is `ot.Brent().solve`. -/
noncomputable def gaussDetectionOf (solve : (ℝ → ℝ) → ℝ → ℝ → ℝ → ℝ) {n : ℕ} (x y : Fin n → ℝ) (detection : ℝ) (z : ℕ → Fin 2 → ℝ)
    (chi : ℕ → ℝ) (simulationSize : ℕ) (probabilityLevel : ℝ) (confidenceLevel : Option ℝ) : Res (List ℝ × List String) :=
  match sampleMin (List.ofFn x), sampleMax (List.ofFn x) with
  | .ok mn, .ok mx =>
    computeDetectionSize solve mn mx (gaussPodOf x y detection)
      (confidenceLevel.map fun c a => (gaussClOf x y detection z chi simulationSize c a).toOption.getD 0)
      (some probabilityLevel) confidenceLevel none none
  | _, _ => .error ⟨.valueError, ""⟩

end Verif.Model
