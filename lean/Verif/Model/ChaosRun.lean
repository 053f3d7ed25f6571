import Verif.Model.Metamodel

/-!
# Simulation part of `PolynomialChaosPOD.run`

/repo/otpod/_polynomial_chaos_pod.py 187-214 and 734-774.  The random draws are parameters.
-/

namespace Verif.Model
open Verif.Py

/-- `_buildChaosFunction` (734-742): `LinearCombinationFunction(reducedBasis, coefs)` composed with the transformation of the inputs. -/
def chaosFunction {P U : Type} (transformation : P → U) (basis : List (U → ℝ)) (coefs : List ℝ) (p : P) : ℝ :=
  (List.zipWith (fun c ψ => c * ψ (transformation p)) coefs basis).sum

/-- Random draws of one call of `_computePOD`: the sample of the parameters (749) and the standard normal sample (762-763). -/
structure ChaosDraws (X : Type) where
  xs : List X
  noise : List ℝ

/-- What `run` knows when the simulation starts.  `detection` is `_detectionBoxCox`. -/
structure ChaosSetup (X U : Type) where
  zero : ℝ × X
  transformation : ℝ × X → U
  basis : List (U → ℝ)
  coefs : List ℝ
  stderr : ℝ
  samplingSize : ℕ
  detection : ℝ

/-- `_computePOD(defectSizes, coefs)` (744-774). -/
noncomputable def chaosPodRow {X U : Type} (c : ChaosSetup X U) (number : ℕ) (sizes : List ℝ) (coefs : List ℝ) (w : ChaosDraws X) :
    List ℝ :=
  chaosComputePOD c.zero (chaosFunction c.transformation c.basis coefs) (w.noise.map (· * c.stderr)) c.detection c.samplingSize number
    sizes w.xs

/-- Columns of a sample given by rows. -/
def columnsOf (rows : List (List ℝ)) (number : ℕ) : List (List ℝ) :=
  (List.range number).map fun j => rows.map fun r => r.getD j 0

/-- Lines 187-214: POD values with the fitted coefficients, interpolation, then one row of `_PODPerDefect` per simulated vector of
coefficients.  With more sizes than `_defectNumber` the slice assignment of line 752 is out of range; with fewer `interp1d` raises. -/
noncomputable def chaosRunSim {X U : Type} (c : ChaosSetup X U) (w0 : ChaosDraws X) (sims : List (List ℝ × ChaosDraws X)) :
    Meth SimAttrs Unit := fun s =>
  if s.number < s.sizes.length then (.error ⟨.indexError, ""⟩, s)
  else
    match interp1d s.sizes (chaosPodRow c s.number s.sizes c.coefs w0) with
    | .error e => (.error e, s)
    | .ok f =>
      (.ok (), { s with
        curve := some f
        perDefect := some (columnsOf (sims.map fun q => chaosPodRow c s.number s.sizes q.1 q.2) s.number) })

end Verif.Model
