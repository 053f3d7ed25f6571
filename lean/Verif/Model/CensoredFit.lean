import Verif.Py.Basic
import Verif.Py.Float
import Verif.Py.Gauss
import Mathlib.Analysis.SpecialFunctions.Log.Basic

/-!
# Censored maximum likelihood — /repo/otpod/_math_tools.py, lines 304-383
-/

namespace Verif.Model
open Verif.Py

/-- `np.log`: `log 0 = -inf`, NaN for a negative argument. -/
noncomputable def flog : F ℝ → F ℝ
  | .nan => .nan
  | .ninf => .nan
  | .pinf => .pinf
  | .fin x => if 0 < x then .fin (Real.log x) else if x = 0 then .ninf else .nan

/-- `ot.DistFunc.pNormal` extended to infinities and NaN. -/
noncomputable def fpNormal : F ℝ → F ℝ
  | .nan => .nan
  | .ninf => .fin 0
  | .pinf => .fin 1
  | .fin x => .fin (Phi x)

/-- `MLE(X, defects, defectsNoise, defectsSat, signals, noiseThres, saturationThres)`
(_math_tools.py 304-339), `X = (b0, b1, s)`.  One column samples are lists.  A threshold `None` can only be
subtracted from when the corresponding group is empty (numpy evaluates no element); otherwise TypeError.
Simplification: exact reals, so `Φ` does not underflow. -/
noncomputable def MLE (X : ℝ × ℝ × ℝ) (defects defectsNoise defectsSat signals : List ℝ)
    (noiseThres saturationThres : Option ℝ) : Res (F ℝ) := do
  let b0 := X.1
  let b1 := X.2.1
  let s := X.2.2
  -- lines 318-319
  let m0 := F.mul (.fin (defects.length : ℝ)) (flog (.fin (s * Real.sqrt (2 * Real.pi))))
  let m1 := F.add m0 (F.mul (F.div (.fin 1) (.fin (2 * s ^ 2)))
    (.fin ((List.zipWith (fun y x => (y - (b0 + b1 * x)) ^ 2) signals defects).sum)))
  -- lines 322-326
  let cdfZnoise ← match noiseThres with
    | some t => pure (defectsNoise.map fun x => fpNormal (F.div (.fin (t - (b0 + b1 * x))) (.fin s)))
    | none => if defectsNoise = [] then pure [] else .error ⟨.typeError, ""⟩
  let m2 := F.add m1 (F.neg (F.sum (cdfZnoise.map flog)))
  -- lines 329-331
  let cdfZsat ← match saturationThres with
    | some t => pure (defectsSat.map fun x => fpNormal (F.div (.fin (t - (b0 + b1 * x))) (.fin s)))
    | none => if defectsSat = [] then pure [] else .error ⟨.typeError, ""⟩
  let m3 := F.add m2 (F.neg (F.sum (cdfZsat.map fun p => flog (F.sub (.fin 1) p))))
  -- lines 333-335
  pure (if m3.isNan then .pinf else m3)

section Search
variable {X K : Type*} [DecidableEq K]

/-- The `while` loop of lines 363-366: `draws i` is the `i`-th call of `np.random.randn(3)`.
Returns the final `testMLE`, `iteration` and `initialStartMLE`. -/
def startLoop (func : X → F K) (draws : ℕ → X) (testMLE : F K) (iteration : ℕ) (start : X) :
    F K × ℕ × X :=
  if testMLE = .pinf ∧ iteration < 100 then
    startLoop func draws (func (draws iteration)) (iteration + 1) (draws iteration)
  else (testMLE, iteration, start)
termination_by 100 - iteration

/-- Result of the optimiser: the minimiser found and scipy's `warnflag`. -/
structure FminResult (X : Type*) where
  x : X
  warnflag : ℕ

/-- What `computeLinearParametersCensored` does that can be observed: the number of random draws, and the
returned parameters with the "maximum number of iterations" warning, or the exception. -/
structure FitOutcome (X : Type*) where
  draws : ℕ
  result : Res (X × Bool)

/-- `computeLinearParametersCensored` (_math_tools.py 342-383) for an arbitrary objective `func`
(line 357-358 instantiates it with `MLE`); `fmin` is `scipy.optimize.fmin(func, start, maxiter=500)`. -/
def computeLinearParametersCensored (func : X → F K) (fmin : (X → F K) → X → FminResult X)
    (draws : ℕ → X) (initialStartMLE : X) : FitOutcome X :=
  let finish (start : X) : Res (X × Bool) :=
    let res := fmin func start
    .ok (res.x, res.warnflag == 2)
  if func initialStartMLE = .pinf then
    let (_, iteration, start) := startLoop func draws (func initialStartMLE) 0 initialStartMLE
    if iteration = 100 then
      ⟨iteration, .error ⟨.exception, "Maximum Likelihood optimization for censored data : cannot find initial starting point."⟩⟩
    else ⟨iteration, finish start⟩
  else ⟨0, finish initialStartMLE⟩

end Search
end Verif.Model
