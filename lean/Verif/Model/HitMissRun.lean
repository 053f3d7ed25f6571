import Verif.Model.Metamodel

/-!
# Last part of `AdaptiveHitMissPOD.run`

/repo/otpod/_adaptive_hitmiss_pod.py 403-409 and 830-846.  The sample of the parameters is a parameter.
-/

namespace Verif.Model
open Verif.Py

/-- Lines 403-409: the probabilities given by the last classifier for each defect size, their means, the interpolation.  With more sizes than
`_defectNumber` the slice assignment of line 839 is out of range and nothing is stored; with fewer `interp1d` raises after the storage.
`xs` is the sample of line 835, `_samplingSize` its length. -/
noncomputable def hitMissRunSim {X : Type} (zero : ℝ × X) (classifier : ℝ × X → ℝ) (xs : List X) : Meth SimAttrs Unit := fun s =>
  if s.number < s.sizes.length then (.error ⟨.indexError, ""⟩, s)
  else
    let cols := hitMissComputePOD zero classifier xs.length s.number s.sizes xs
    let s1 := { s with perDefect := some cols }
    match interp1d s.sizes (cols.map listMean) with
    | .error e => (.error e, s1)
    | .ok f => (.ok (), { s1 with curve := some f })

end Verif.Model
