import Verif.Model.Base
import Verif.Model.HitMiss
import Verif.Model.Loo

/-!
# Default distribution of the inputs and hit-miss data

Default distribution: _kriging_pod.py 188-195, _polynomial_chaos_pod.py 672-681, _adaptive_signal_pod.py 187-194,
_adaptive_hitmiss_pod.py 189-196 (the same code four times).  Data of the hit-miss algorithm: _adaptive_hitmiss_pod.py 137-176.
-/

namespace Verif.Model
open Verif.Py

/-- `ot.Uniform(a, b)`: the constructor of OpenTURNS requires `a < b` and raises TypeError otherwise. -/
noncomputable def uniformLaw (a b : ℝ) : Res (ℝ × ℝ) :=
  if a < b then .ok (a, b) else .error ⟨.typeError, "Error the lower bound a of a Uniform distribution must be lesser than its upper bound b"⟩

/-- The list comprehension over the columns: the first exception stops it. -/
noncomputable def uniformMarginals : List (ℝ × ℝ) → Res (List (ℝ × ℝ))
  | [] => .ok []
  | (a, b) :: r =>
    match uniformLaw a b with
    | .error e => .error e
    | .ok m =>
      match uniformMarginals r with
      | .error e => .error e
      | .ok ms => .ok (m :: ms)

/-- `inputSample.getMin()` and `getMax()`, column by column: columns are given as lists. -/
noncomputable def columnRanges : List (List ℝ) → Res (List (ℝ × ℝ))
  | [] => .ok []
  | c :: cs =>
    match sampleMin c, sampleMax c with
    | .ok a, .ok b =>
      match columnRanges cs with
      | .error e => .error e
      | .ok r => .ok ((a, b) :: r)
    | .error e, _ => .error e
    | .ok _, .error e => .error e

/-- The default marginals.  `defects` is the column of the defects (replaced by the range of `self._defectSizes`),
`params` the columns of the other parameters. -/
noncomputable def defaultMarginals (defects : List ℝ) (params : List (List ℝ)) (sizes : List ℝ) : Res (List (ℝ × ℝ)) :=
  match columnRanges (defects :: params) with
  | .error e => .error e
  | .ok ranges =>
    match sampleMin sizes, sampleMax sizes with
    | .ok a, .ok b => uniformMarginals ((a, b) :: ranges.tail)
    | .error e, _ => .error e
    | .ok _, .error e => .error e

/-- The attributes used: the distribution (as the bounds of its uniform marginals, or a distribution of the user). -/
structure DistAttrs (D : Type) where
  dist : Option (D ⊕ List (ℝ × ℝ))
  sizes : List ℝ

/-- The block `if self._distribution is None: …`. -/
noncomputable def ensureDistribution {D : Type} (defects : List ℝ) (params : List (List ℝ)) : Meth (DistAttrs D) Unit := fun s =>
  match s.dist with
  | some _ => (.ok (), s)
  | none =>
    match defaultMarginals defects params s.sizes with
    | .error e => (.error e, s)
    | .ok ms => (.ok (), { s with dist := some (.inr ms) })

/-! ## Hit-miss data -/

/-- `float → class`: a signal given as hit-miss value; sklearn reads the classes of the outputs. -/
noncomputable def asLabel (y : ℝ) : Bool := decide (y = 1)

/-- The constructor after `_run` (lines 163-176): `kept` are the filtered observations.  Without detection the outputs are the
labels and the physical model is kept; with detection, `ot.LevelSet(physicalModel, …)` needs a Function (an exception otherwise)
and the labels are the comparisons `signals > detection`. -/
noncomputable def hmInit {X : Type} (kept : List (X × ℝ)) (physical : Option (X → Res ℝ)) (detection : Option ℝ) :
    Res (List X × List Bool × Option (X → Res Bool)) :=
  match detection with
  | none => .ok (kept.map (·.1), kept.map (fun o => asLabel o.2), physical.map fun f x =>
      match f x with
      | .error e => .error e
      | .ok y => .ok (asLabel y))
  | some det =>
    match physical with
    | none => .error ⟨.notImplemented, "Wrong number or type of arguments for overloaded function 'new_LevelSet'."⟩
    | some f => .ok (kept.map (·.1), kept.map (fun o => decide (det < o.2)), some fun x =>
        match f x with
        | .error e => .error e
        | .ok y => .ok (decide (det < y)))

/-- The observations kept by `_run` (_pod.py 303-315): filtered only if a threshold is given. -/
noncomputable def hmKept {X : Type} (fmax : ℝ) (obs : List (X × ℝ)) (noise sat : Option ℝ) : List (X × ℝ) :=
  if noise = none ∧ sat = none then obs else uncensoredObs fmax obs noise sat

/-- Constructor and run.  Calling a physical model that is None raises TypeError. -/
noncomputable def hmCtorRun {X : Type} (fmax : ℝ) (fit : ℕ → List X → List Bool → Res (X → F ℝ)) (argsort : List (F ℝ) → List ℕ)
    (obs : List (X × ℝ)) (physical : Option (X → Res ℝ)) (detection noise sat : Option ℝ) (cand : List X) (nMore : ℕ) :
    Res (HMAttrs X) :=
  match hmInit (hmKept fmax obs noise sat) physical detection with
  | .error e => .error e
  | .ok (xs, zs, ph) =>
    let ph' : X → Res Bool := match ph with
      | some g => g
      | none => fun _ => .error ⟨.typeError, "'NoneType' object is not callable"⟩
    match hmRun ⟨ph', fit, argsort⟩ cand nMore ⟨xs, zs, false, none, none, .fin 0.45, .fin 0.52⟩ with
    | (.error e, _) => .error e
    | (.ok _, s) => .ok s

end Verif.Model
