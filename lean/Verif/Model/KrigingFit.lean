import Verif.Py.Basic
import Verif.Py.Float
import Verif.Model.AdaptiveSignal

/-!
# Fitting and updating the kriging model

`_buildKrigingAlgo` and `_estimKrigingTheta` of /repo/otpod/_kriging_tools.py, the fitting steps of `KrigingPOD.run`
(_kriging_pod.py 154-184) and of `AdaptiveSignalPOD.run` (_adaptive_signal_pod.py 207-235, 363-397).

`D` data (inputs and signals), `C` covariance models, `B` trend bases, `R` results of the regression.  OpenTURNS has two
classes: the `GaussianProcessFitter`, which estimates the covariance parameters and has the `setOptimiz…` methods, and the
`GaussianProcessRegression` built from the fitter's result, which has not.
-/

namespace Verif.Model
open Verif.Py

/-- Settings of a `GaussianProcessFitter`. -/
structure Fitter (C B : Type) where
  cov : C
  basis : B
  optimise : Bool
  bounds : Option (List ℝ × List ℝ)
  starts : List (List ℝ)

/-- The objects that the variables `fitter` and `algoKriging` can hold. -/
inductive KAlgo (C B R : Type)
  | fitter (f : Fitter C B)
  | regression (r : R)

/-- External functions: default covariance model and basis (_kriging_tools.py 387-400), number of parameters of the likelihood,
run of a fitter followed by the regression, accessors of the result, validation of lines 556-565. -/
structure KrigExt (D C B R : Type) where
  defaultCov : C
  defaultBasis : B
  llDim : Fitter C B → ℕ
  fitRun : Fitter C B → D → Res R
  covOf : R → C
  basisOf : R → B
  q2 : D → R → Res (F ℝ)

variable {D C B R : Type}

/-- Error of a method that the regression class does not have. -/
def noMethod (name : String) : PyErr := ⟨.attributeError, "'GaussianProcessRegression' object has no attribute '" ++ name ++ "'"⟩

/-- `setOptimizeParameters` (library). -/
def KAlgo.setOptimize (b : Bool) : KAlgo C B R → Res (KAlgo C B R)
  | .fitter f => .ok (.fitter { f with optimise := b })
  | .regression _ => .error (noMethod "setOptimizeParameters")

/-- `setOptimizationBounds` (library). -/
def KAlgo.setBounds (lower upper : List ℝ) : KAlgo C B R → Res (KAlgo C B R)
  | .fitter f => .ok (.fitter { f with bounds := some (lower, upper) })
  | .regression _ => .error (noMethod "setOptimizationBounds")

/-- `setOptimizationAlgorithm` with a multi-start from given points (library). -/
def KAlgo.setStarts (starts : List (List ℝ)) : KAlgo C B R → Res (KAlgo C B R)
  | .fitter f => .ok (.fitter { f with starts := starts })
  | .regression _ => .error (noMethod "setOptimizationAlgorithm")

/-- Lines 500-513 of _kriging_tools.py: a low discrepancy design in the box.  `unit dim size` is the Sobol sequence in the unit
cube; the marginal `Uniform(lower[i], upper[i])` maps a coordinate affinely. -/
noncomputable def boxDesign (unit : ℕ → ℕ → List (List ℝ)) (lower upper : List ℝ) (size : ℕ) : List (List ℝ) :=
  (unit lower.length size).map fun u => List.zipWith (fun t p => p.1 + t * (p.2 - p.1)) u (lower.zip upper)

/-- `_estimKrigingTheta` (_kriging_tools.py 492-518). -/
noncomputable def estimKrigingTheta (unit : ℕ → ℕ → List (List ℝ)) (a : KAlgo C B R) (lower upper : List ℝ) (size : ℤ) :
    Res (KAlgo C B R) :=
  if 0 < size then
    match a.setBounds lower upper with
    | .error e => .error e
    | .ok a1 => a1.setStarts (boxDesign unit lower upper size.toNat)
  else a.setOptimize false

/-- Running an algorithm: a fitter estimates and makes the regression, a regression gives its result again. -/
def KAlgo.run (ext : KrigExt D C B R) (d : D) : KAlgo C B R → Res R
  | .fitter f => ext.fitRun f d
  | .regression r => .ok r

/-- Attributes `_basis`, `_covarianceModel`, `_krigingResult`, `_Q2`. -/
structure KState (C B R : Type) where
  basis : Option B
  cov : Option C
  result : Option R
  q2 : Option (F ℝ)

/-- `_buildKrigingAlgo` (_kriging_tools.py 383-420), without the normalisation (see `normalise`): the defaults are stored in the
attributes; a new fitter optimises its parameters. -/
def buildKrigingAlgo (ext : KrigExt D C B R) (s : KState C B R) : Fitter C B × KState C B R :=
  let b := s.basis.getD ext.defaultBasis
  let c := s.cov.getD ext.defaultCov
  (⟨c, b, true, none, []⟩, { s with basis := some b, cov := some c })

/-- Fitting with an estimation of the parameters: _kriging_pod.py 158-177, _adaptive_signal_pod.py 209-225. -/
noncomputable def fitOptimised (ext : KrigExt D C B R) (unit : ℕ → ℕ → List (List ℝ)) (size : ℤ) (d : D) :
    Meth (KState C B R) R := fun s =>
  let b := buildKrigingAlgo ext s
  let n := ext.llDim b.1
  match estimKrigingTheta unit (.fitter b.1) (List.replicate n 0.001) (List.replicate n 50) size with
  | .error e => (.error e, b.2)
  | .ok a =>
    match a.run ext d with
    | .error e => (.error e, b.2)
    | .ok r => (.ok r, { b.2 with result := some r })

/-- Lines 158-184 of _kriging_pod.py: fit and validation. -/
noncomputable def krigingPodFit (ext : KrigExt D C B R) (unit : ℕ → ℕ → List (List ℝ)) (size : ℤ) (d : D) :
    Meth (KState C B R) R := fun s =>
  match fitOptimised ext unit size d s with
  | (.error e, s1) => (.error e, s1)
  | (.ok r, s1) =>
    match ext.q2 d r with
    | .error e => (.error e, s1)
    | .ok v => (.ok r, { s1 with q2 := some v })

/-- Lines 207-237 of _adaptive_signal_pod.py: the same, and the covariance model and the basis of the result are stored. -/
noncomputable def adaptiveFit (ext : KrigExt D C B R) (unit : ℕ → ℕ → List (List ℝ)) (size : ℤ) (d : D) :
    Meth (KState C B R) R := fun s =>
  match fitOptimised ext unit size d s with
  | (.error e, s1) => (.error e, s1)
  | (.ok r, s1) =>
    let s2 := { s1 with cov := some (ext.covOf r), basis := some (ext.basisOf r) }
    match ext.q2 d r with
    | .error e => (.error e, s2)
    | .ok v => (.ok r, { s2 with q2 := some v })

/-- Lines 379-384 of _adaptive_signal_pod.py, on the variable `algoKriging`. -/
noncomputable def reoptimise (ext : KrigExt D C B R) (unit : ℕ → ℕ → List (List ℝ)) (n : ℕ) (size : ℤ) (d : D)
    (a : KAlgo C B R) : Res R :=
  match a.setOptimize true with
  | .error e => .error e
  | .ok a1 =>
    match estimKrigingTheta unit a1 (List.replicate n 0.001) (List.replicate n 50) size with
    | .error e => .error e
    | .ok a2 => a2.run ext d

/-- Lines 363-397 of _adaptive_signal_pod.py: update of the model after a point was added.  `n` is the dimension `llDim` found
before the loop (line 214).  The variable `algoKriging` holds a regression when line 380 is reached. -/
noncomputable def updateFit (ext : KrigExt D C B R) (unit : ℕ → ℕ → List (List ℝ)) (n : ℕ) (size : ℤ) (d : D) :
    Meth (KState C B R) R := fun s =>
  let b := buildKrigingAlgo ext s
  match ext.fitRun { b.1 with optimise := false } d with
  | .error e => (.error e, b.2)
  | .ok r0 =>
    match ext.q2 d r0 with
    | .error e => (.error e, b.2)
    | .ok v =>
      let s1 := { b.2 with q2 := some v }
      match (if F.lt v (.fin 0.95) then reoptimise ext unit n size d (.regression r0) else .ok r0) with
      | .error e => (.error e, s1)
      | .ok r =>
        let s2 := { s1 with result := some r, cov := some (ext.covOf r), basis := some (ext.basisOf r) }
        match ext.q2 d r with
        | .error e => (.error e, s2)
        | .ok w => (.ok r, { s2 with q2 := some w })

/-- State of the four attributes while the loop runs: everything comes from the current result. -/
def loopState (ext : KrigExt D C B R) (m : R) (v : F ℝ) : KState C B R :=
  ⟨some (ext.basisOf m), some (ext.covOf m), some m, some v⟩

/-- The environment of the enrichment loop with the code above in it; `s0` are the attributes before `run`. -/
noncomputable def krigEnv {X : Type} (ext : KrigExt (List X × List ℝ) C B R) (unit : ℕ → ℕ → List (List ℝ)) (size : ℤ)
    (s0 : KState C B R) (physical : X → Res ℝ) (crit : ℕ → R → R → List X → List ℝ → ℕ → X → Res (F ℝ)) : AdEnv X R where
  physical := physical
  crit := crit
  refit m xs ys := (updateFit ext unit (ext.llDim (buildKrigingAlgo ext s0).1) size (xs, ys) (loopState ext m .nan)).1
  fit xs ys := (adaptiveFit ext unit size (xs, ys) s0).1

end Verif.Model
