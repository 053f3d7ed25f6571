import Verif.Py.Basic
import Mathlib.Data.Real.Basic

/-!
# Control flow and cached settings of `KrigingPOD.run` and `PolynomialChaosPOD.run`

`R` results of the metamodel algorithm, `T` normalisations, `D` input distributions, `P` POD curves.
-/

namespace Verif.Model
open Verif.Py

/-- Attributes of a `KrigingPOD` that `run` reads or writes (_kriging_pod.py 101-140). -/
structure KrigingAttrs (R T D P : Type) where
  userKriging : Bool
  krigingResult : Option R
  transformation : Option T
  distribution : Option D
  sizes : List ℝ
  pod : Option P

/-- `setKrigingResult` (_kriging_pod.py 222-238) on a valid result. -/
def setKrigingResult {R T D P : Type} (r : R) : Meth (KrigingAttrs R T D P) Unit := fun s =>
  (.ok (), { s with krigingResult := some r, userKriging := true })

/-- `KrigingPOD.run` (142-218).  `fit` is the fitted result and the normalisation built with it; `q2` the validation of
lines 182-184, `defaultDist` lines 189-195, `compute` lines 198-217.  The *local variable* `transformation` is only bound
in the branch that fits (lines 162-164); reading it otherwise raises UnboundLocalError. -/
def krigingRun {R T D P : Type} (fit : Res (R × T)) (q2 : R → T → Res ℝ) (defaultDist : List ℝ → D)
    (compute : R → T → D → List ℝ → Res P) : Meth (KrigingAttrs R T D P) Unit := fun s =>
  if s.userKriging then
    -- `transformation` is evaluated as an argument of `_computeQ2`
    (.error ⟨.unboundLocal, "transformation"⟩, s)
  else
    match fit with
    | .error e => (.error e, s)
    | .ok (r, t) =>
      let s1 := { s with krigingResult := some r, transformation := some t }
      match q2 r t with
      | .error e => (.error e, s1)
      | .ok _ =>
        let d := s1.distribution.getD (defaultDist s1.sizes)
        let s2 := { s1 with distribution := some d }
        match compute r t d s2.sizes with
        | .error e => (.error e, s2)
        | .ok p => (.ok (), { s2 with pod := some p })

/-- The fixed adaptive strategy: polynomials orthogonal for a distribution, up to a degree
(_polynomial_chaos_pod.py 686-701). -/
structure Strategy (D : Type) where
  degree : ℕ
  dist : D

/-- Attributes of a `PolynomialChaosPOD` that `run` reads or writes. -/
structure ChaosAttrs (R D P : Type) where
  userChaos : Bool
  chaosResult : Option R
  distribution : Option D
  adaptive : Option (Strategy D)
  degree : ℕ
  sizes : List ℝ
  pod : Option P

/-- `setPolynomialChaosResult` (602-616) on a valid result. -/
def setPolynomialChaosResult {R D P : Type} (r : R) : Meth (ChaosAttrs R D P) Unit := fun s =>
  (.ok (), { s with chaosResult := some r, userChaos := true })

/-- `setDegree` (580-589). -/
def setDegree {R D P : Type} (k : ℕ) : Meth (ChaosAttrs R D P) Unit := fun s => (.ok (), { s with degree := k })

/-- `setDistribution` (494-505) on a valid distribution. -/
def chaosSetDistribution {R D P : Type} (d : D) : Meth (ChaosAttrs R D P) Unit := fun s =>
  (.ok (), { s with distribution := some d })

/-- `_buildChaosAlgo` (668-720): default distribution, then default strategy, both cached in attributes.  `fit` runs the
algorithm with them.  The projection strategy (cached too) depends on the data only. -/
def chaosBuild {R D P : Type} (defaultDist : List ℝ → D) (s : ChaosAttrs R D P) : ChaosAttrs R D P × D × Strategy D :=
  let d := s.distribution.getD (defaultDist s.sizes)
  let a := s.adaptive.getD ⟨s.degree, d⟩
  ({ s with distribution := some d, adaptive := some a }, d, a)

/-- `PolynomialChaosPOD.run` (141-215): `compute` stands for lines 164-214, which need the distribution
(`self._distribution.getSample`, line 749): AttributeError on `None`. -/
def chaosRun {R D P : Type} (defaultDist : List ℝ → D) (fit : D → Strategy D → Res R)
    (compute : R → D → List ℝ → Res P) : Meth (ChaosAttrs R D P) Unit := fun s =>
  if s.userChaos then finish s
  else
    let b := chaosBuild defaultDist s
    match fit b.2.1 b.2.2 with
    | .error e => (.error e, b.1)
    | .ok r => finish { b.1 with chaosResult := some r }
where
  /-- Everything after the metamodel is available. -/
  finish (s : ChaosAttrs R D P) : Res Unit × ChaosAttrs R D P :=
    match s.chaosResult with
    | none => (.error ⟨.attributeError, "'NoneType' object has no attribute 'getMetaModel'"⟩, s)
    | some r =>
      match s.distribution with
      | none => (.error ⟨.attributeError, "'NoneType' object has no attribute 'getSample'"⟩, s)
      | some d =>
        match compute r d s.sizes with
        | .error e => (.error e, s)
        | .ok p => (.ok (), { s with pod := some p })

/-- Calls between constructions and runs. -/
inductive ChaosOp (D : Type)
  | setDegree (k : ℕ)
  | setSizes (sizes : List ℝ)
  | setDistribution (d : D)
  | run

/-- One call; `setSizes` stands for an accepted `setDefectSizes`. -/
def chaosStep {R D P : Type} (defaultDist : List ℝ → D) (fit : D → Strategy D → Res R) (compute : R → D → List ℝ → Res P)
    (s : ChaosAttrs R D P) : ChaosOp D → ChaosAttrs R D P
  | .setDegree k => (setDegree k s).2
  | .setSizes l => { s with sizes := l }
  | .setDistribution d => (chaosSetDistribution d s).2
  | .run => (chaosRun defaultDist fit compute s).2

end Verif.Model
