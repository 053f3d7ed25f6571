import Verif.Model.SobolDesign
import Mathlib.Data.Real.Sqrt

/-!
# The four sensitivity methods

/repo/otpod/_sobol_indices.py 148-169.  External: the estimators of `ot.SaltelliSensitivityAlgorithm`, `ot.MartinezSensitivityAlgorithm`,
`ot.JansenSensitivityAlgorithm` and `ot.MauntzKucherenkoSensitivityAlgorithm`, written from the documentation of OpenTURNS.
-/

namespace Verif.Model
open Verif.Py

/-- Empirical correlation of two blocks. -/
noncomputable def blockCorr (N : ℕ) (u v : ℕ → ℝ) : ℝ :=
  let mu := (∑ k ∈ Finset.range N, u k) / N
  let mv := (∑ k ∈ Finset.range N, v k) / N
  (∑ k ∈ Finset.range N, (u k - mu) * (v k - mv))
    / Real.sqrt ((∑ k ∈ Finset.range N, (u k - mu) ^ 2) * ∑ k ∈ Finset.range N, (v k - mv) ^ 2)

/-- The dispatch of lines 148-169, then `getFirstOrderIndices` and `getTotalOrderIndices` of the algorithm for input `i` and defect size `j`.
`c` is the value by which the outputs are centred in OpenTURNS.  With another method no algorithm is created, and line 169 fails on a first run. -/
noncomputable def sobolEstimates (method : String) (c : ℝ) (N i j : ℕ) (out : List (List ℝ)) : Res (ℝ × ℝ) :=
  let a := fun k => designEntry out N 0 k j
  let b := fun k => designEntry out N 1 k j
  let e := fun k => designEntry out N (2 + i) k j
  let v := colVariance ((out.map fun r => r.getD j 0).take N)
  if method = "Saltelli" then
    .ok ((∑ k ∈ Finset.range N, (b k - c) * (e k - c)) / (N - 1) / v, 1 - (∑ k ∈ Finset.range N, (a k - c) * (e k - c)) / (N - 1) / v)
  else if method = "Martinez" then .ok (blockCorr N b e, 1 - blockCorr N a e)
  else if method = "Jansen" then .ok (1 - (∑ k ∈ Finset.range N, (e k - b k) ^ 2) / (2 * N - 1) / v, jansenTotal N i j out)
  else if method = "MauntzKucherenko" then
    .ok ((∑ k ∈ Finset.range N, (b k - c) * (e k - a k)) / (N - 1) / v, (∑ k ∈ Finset.range N, (a k - c) * (a k - e k)) / (N - 1) / v)
  else .error ⟨.attributeError, "'NoneType' object has no attribute 'setUseAsymptoticDistribution'"⟩

end Verif.Model
