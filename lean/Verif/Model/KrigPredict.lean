import Verif.Model.Loo
import Mathlib.Data.Fin.Tuple.Basic

/-!
# Predictions of the kriging model

The Gaussian process regression of the library, as used by `_buildKrigingAlgo` (_kriging_tools.py 401-420),
`_randomVectorSampling` (470-490) and the temporary models of `AdaptiveSignalPOD.run` (_adaptive_signal_pod.py 270-302).
Library formulas (universal kriging, exact linear algebra); the covariance model is used as it is, without estimation of its parameters.
-/

namespace Verif.Model
open Matrix

variable {n p d : ℕ} {X : Type}

/-- Covariance matrix of the design. -/
def krigK (k : X → X → ℝ) (xs : Fin n → X) : Matrix (Fin n) (Fin n) ℝ := Matrix.of fun i j => k (xs i) (xs j)

/-- Trend functions on the design. -/
def krigF (f : X → Fin p → ℝ) (xs : Fin n → X) : Matrix (Fin n) (Fin p) ℝ := Matrix.of fun i l => f (xs i) l

/-- Covariances of a point with the design, and the trend functions at this point. -/
def krigRhs (k : X → X → ℝ) (f : X → Fin p → ℝ) (xs : Fin n → X) (x : X) : Fin n ⊕ Fin p → ℝ :=
  Sum.elim (fun i => k (xs i) x) (f x)

/-- Conditional mean (`getMetaModel()`, `getConditionalMean`): generalised least squares trend plus the kriged residual, in the dual form of
the bordered system. -/
noncomputable def krigMean (k : X → X → ℝ) (f : X → Fin p → ℝ) (xs : Fin n → X) (y : Fin n → ℝ) (x : X) : ℝ :=
  krigRhs k f xs x ⬝ᵥ ((borderedMatrix (krigK k xs) (krigF f xs))⁻¹ *ᵥ Sum.elim y 0)

/-- Conditional variance (`getConditionalCovariance(x)[0, 0]`, _kriging_tools.py 478-483), including the uncertainty of the trend. -/
noncomputable def krigVar (k : X → X → ℝ) (f : X → Fin p → ℝ) (xs : Fin n → X) (x : X) : ℝ :=
  k x x - krigRhs k f xs x ⬝ᵥ ((borderedMatrix (krigK k xs) (krigF f xs))⁻¹ *ᵥ krigRhs k f xs x)

/-- Prediction at a physical point of the model built on a design: the covariance model and the basis work on the coordinates normalised with
this design (_kriging_tools.py 401-420, _adaptive_signal_pod.py 233-235). -/
noncomputable def designMean (k : (Fin d → ℝ) → (Fin d → ℝ) → ℝ) (f : (Fin d → ℝ) → Fin p → ℝ) (sample : Fin n → Fin d → ℝ)
    (y : Fin n → ℝ) (x : Fin d → ℝ) : ℝ :=
  krigMean k f (fun i => normalise sample (sample i)) y (normalise sample x)

/-- Variance at a physical point. -/
noncomputable def designVar (k : (Fin d → ℝ) → (Fin d → ℝ) → ℝ) (f : (Fin d → ℝ) → Fin p → ℝ) (sample : Fin n → Fin d → ℝ)
    (x : Fin d → ℝ) : ℝ :=
  krigVar k f (fun i => normalise sample (sample i)) (normalise sample x)

/-- The temporary model of a candidate (_adaptive_signal_pod.py 270-302): the candidate and its predicted signal are added at the end, the
normalisation is computed again, the covariance model and the basis stay. -/
noncomputable def tempMean (k : (Fin d → ℝ) → (Fin d → ℝ) → ℝ) (f : (Fin d → ℝ) → Fin p → ℝ) (sample : Fin n → Fin d → ℝ)
    (y : Fin n → ℝ) (candidate x : Fin d → ℝ) : ℝ :=
  designMean k f (Fin.snoc sample candidate : Fin (n + 1) → Fin d → ℝ)
    (Fin.snoc y (designMean k f sample y candidate) : Fin (n + 1) → ℝ) x

/-- Variance of the temporary model. -/
noncomputable def tempVar (k : (Fin d → ℝ) → (Fin d → ℝ) → ℝ) (f : (Fin d → ℝ) → Fin p → ℝ) (sample : Fin n → Fin d → ℝ)
    (candidate x : Fin d → ℝ) : ℝ :=
  designVar k f (Fin.snoc sample candidate : Fin (n + 1) → Fin d → ℝ) x

end Verif.Model
