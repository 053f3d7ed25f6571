import Verif.Model.Sobol
import Mathlib.Algebra.BigOperators.Group.Finset.Defs

/-!
# The design of the Sobol analysis and the total indices

/repo/otpod/_sobol_indices.py 126-129 and 148-167.  External: `ot.SobolIndicesExperiment` (layout of the design) and
`ot.JansenSensitivityAlgorithm` (estimator of the total indices from the output design).
-/

namespace Verif.Model
open Verif.Py

/-- Point of the first sample with input `i` taken from the second one. -/
def sobolExchange (i : ℕ) (a b : List ℝ) : List ℝ := a.set i (b.getD i 0)

/-- `ot.SobolIndicesExperiment(self._distribution, self._N, False).generate()` (126-128): two independent samples, then for each input the
first sample with this input taken from the second. -/
def sobolDesign (dim : ℕ) (A B : List (List ℝ)) : List (List ℝ) :=
  A ++ B ++ (List.range dim).flatMap fun i => List.zipWith (sobolExchange i) A B

/-- Value for defect size `j` at point `k` of block `b` of the output design. -/
def designEntry (out : List (List ℝ)) (N b k j : ℕ) : ℝ := (out.getD (b * N + k) []).getD j 0

/-- Sum of the squared differences between the first block and the block of input `i`, for defect size `j`: the numerator of the estimate of
the total index of `ot.JansenSensitivityAlgorithm` (160-162). -/
noncomputable def jansenGap (N i j : ℕ) (out : List (List ℝ)) : ℝ :=
  ∑ k ∈ Finset.range N, (designEntry out N 0 k j - designEntry out N (2 + i) k j) ^ 2

/-- The estimate of the total index: `1 / (2 N - 1)` times the squared differences, over the variance of the first block (the columns with a null
variance have been removed, 131-146). -/
noncomputable def jansenTotal (N i j : ℕ) (out : List (List ℝ)) : ℝ :=
  jansenGap N i j out / (2 * N - 1) / colVariance ((out.map fun r => r.getD j 0).take N)

end Verif.Model
