import Verif.Model.Metamodel
import Verif.Model.AdaptiveSignal

/-!
# The criterion of `AdaptiveSignalPOD.run`

Model of /repo/otpod/_adaptive_signal_pod.py 248-330: the reference POD of the iteration and the criterion of one candidate.
The simulated POD values of a candidate (its temporary kriging model, `_computePODSamplePerDefect`) are a parameter.
-/

namespace Verif.Model
open Verif.Py

/-- `podSample.computeVariance()[0]` (line 324), with divisor `n-1`.  A sample of size one has variance zero. -/
noncomputable def listVar (xs : List ℝ) : ℝ :=
  (xs.map fun x => (x - listMean xs) ^ 2).sum / ((xs.length : ℝ) - 1)

/-- `currentPOD` (lines 248-266): fraction of the predictions above the threshold, for all sizes at once. -/
noncomputable def currentPOD {X : Type} (zero : ℝ × X) (metamodel : ℝ × X → ℝ) (detection : ℝ)
    (samplingSize number : ℕ) (sizes : List ℝ) (xs : List X) : List ℝ :=
  (reshapeF ((fullSample zero samplingSize number sizes xs).map metamodel) samplingSize number).map
    (fracAbove detection)

/-- Line 325: variance plus squared bias for one defect size. -/
noncomputable def critDefect (podSample : List ℝ) (current : ℝ) : ℝ :=
  listVar podSample + (listMean podSample - current) ^ 2

/-- Lines 304-327: the loop over the defect sizes and the aggregation.  `sims` holds the simulated POD values for each defect
size, `current` has `_defectNumber` entries: one size too many raises IndexError (column assignment in line 321).
The mean of an empty list is NaN. -/
noncomputable def candCriterion (sims : List (List ℝ)) (current : List ℝ) : Res (F ℝ) :=
  if current.length < sims.length then .error ⟨.indexError, ""⟩
  else if sims = [] then .ok .nan
  else .ok (.fin (Real.sqrt (listMean (List.zipWith critDefect sims current))))

/-- The loop environment in which the criterion is the one of lines 248-327.  `sim` gives the simulated POD values of the
temporary model of a candidate for one size; `cur` the reference POD computed from the prediction function. -/
noncomputable def critEnv {X M : Type} (physical : X → Res ℝ) (fit : List X → List ℝ → Res M)
    (refit : M → List X → List ℝ → Res M)
    (sizes : List ℝ) (cur : ℕ → M → List ℝ) (sim : ℕ → M → M → List X → List ℝ → ℕ → X → ℝ → List ℝ) : AdEnv X M where
  physical := physical
  crit it ref m xs ys i x := candCriterion (sizes.map (sim it ref m xs ys i x)) (cur it ref)
  refit := refit
  fit := fit

end Verif.Model
