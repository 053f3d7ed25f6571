import Mathlib.LinearAlgebra.Matrix.NonsingularInverse
import Mathlib.Data.Matrix.Block
import Mathlib.Data.Real.Sqrt
import Verif.Model.Stats

/-!
# Leave-one-out formulas and normalisation
`_kriging_tools.py` (KrigingBase), `_polynomial_chaos_pod.py` (getQ2).
-/

namespace Verif.Model
open Matrix

variable {n p : ℕ}

/-- The bordered matrix `S` of `_computeLOO` (_kriging_tools.py 547-548): covariance matrix `K` of the design, trend
functions `F` evaluated on it. -/
def borderedMatrix (K : Matrix (Fin n) (Fin n) ℝ) (F : Matrix (Fin n) (Fin p) ℝ) :
    Matrix (Fin n ⊕ Fin p) (Fin n ⊕ Fin p) ℝ := fromBlocks K F Fᵀ 0

/-- `B = S_inv[:size, :size]` (549-550).  `np.linalg.inv` raises on singular matrices; Mathlib's inverse is then 0, so
theorems assume invertibility. -/
noncomputable def looB (K : Matrix (Fin n) (Fin n) ℝ) (F : Matrix (Fin n) (Fin p) ℝ) : Matrix (Fin n) (Fin n) ℝ :=
  (borderedMatrix K F)⁻¹.toBlocks₁₁

/-- `_computeLOO` (551-553): `-(B_but_its_diag / B_diag) · y`, the division being by row. -/
noncomputable def computeLOO (K : Matrix (Fin n) (Fin n) ℝ) (F : Matrix (Fin n) (Fin p) ℝ) (y : Fin n → ℝ) (i : Fin n) : ℝ :=
  -∑ j, (looB K F i j * (1 - if i = j then 1 else 0) / looB K F i i) * y j

/-- `np.var`: the population variance. -/
noncomputable def npVar (y : Fin n → ℝ) : ℝ := (∑ i, (y i - smean y) ^ 2) / n

/-- `_computeQ2` (_kriging_tools.py 556-565). -/
noncomputable def krigingQ2 (y yloo : Fin n → ℝ) : ℝ := 1 - smean (fun i => (y i - yloo i) ^ 2) / npVar y

/-- `getQ2` (_polynomial_chaos_pod.py 417-433): hat matrix of the basis matrix `A`, residuals divided by `1 - H_ii`,
mean square over the *unbiased* variance.  `fitted` are the metamodel values. -/
noncomputable def chaosH (A : Matrix (Fin n) (Fin p) ℝ) : Matrix (Fin n) (Fin n) ℝ := A * ((Aᵀ * A)⁻¹ * Aᵀ)

/-- The scaled residuals `delta` of `getQ2` (line 431). -/
noncomputable def chaosDelta (A : Matrix (Fin n) (Fin p) ℝ) (y fitted : Fin n → ℝ) (i : Fin n) : ℝ :=
  (y i - fitted i) / (1 - chaosH A i i)

/-- The value of `getQ2` (line 433). -/
noncomputable def chaosQ2 (A : Matrix (Fin n) (Fin p) ℝ) (y fitted : Fin n → ℝ) : ℝ :=
  1 - smean (fun i => chaosDelta A y fitted i ^ 2) / svar y

/-- Least-squares coefficients of the basis matrix. -/
noncomputable def lsCoefs (A : Matrix (Fin n) (Fin p) ℝ) (y : Fin n → ℝ) : Fin p → ℝ := (Aᵀ * A)⁻¹ *ᵥ (Aᵀ *ᵥ y)

/-- The normalisation of `_buildKrigingAlgo` (_kriging_tools.py 401-411): column `j` of the sample `x` is centred and
divided by its standard deviation unless this is at most 1e-12.  `LinearFunction(mean, 0, linear)` is
`x ↦ linear (x - mean)` with a diagonal matrix. -/
noncomputable def normFactor (col : Fin n → ℝ) : ℝ :=
  if (1e-12 : ℝ) < |Real.sqrt (svar col)| then 1 / Real.sqrt (svar col) else 1

/-- The transformation of one point. -/
noncomputable def normalise {d : ℕ} (sample : Fin n → Fin d → ℝ) (x : Fin d → ℝ) (j : Fin d) : ℝ :=
  normFactor (fun i => sample i j) * (x j - smean fun i => sample i j)

/-- The metamodel `x ↦ krigingResult.getMetaModel()(transformation(x))`, when `fit` is the regression on a normalised design
(_kriging_tools.py 401-420, _adaptive_signal_pod.py 233-235). -/
noncomputable def metamodelOf {d : ℕ} (fit : (Fin n → Fin d → ℝ) → (Fin n → ℝ) → (Fin d → ℝ) → ℝ) (sample : Fin n → Fin d → ℝ)
    (y : Fin n → ℝ) (x : Fin d → ℝ) : ℝ :=
  fit (fun i => normalise sample (sample i)) y (normalise sample x)

end Verif.Model
