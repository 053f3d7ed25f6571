import Verif.Model.KrigPredict
import Verif.Model.Metamodel

/-!
# Simulation of the kriging POD with the random draws as parameters

/repo/otpod/_kriging_tools.py 383-396 and 422-490, /repo/otpod/_kriging_pod.py 198-217.
-/

namespace Verif.Model
open Verif.Py

/-- The default trend basis of `_buildKrigingAlgo` (_kriging_tools.py 387-396): constant, and linear in the first coordinate (the defect). -/
def defectTrend {d : ℕ} (x : Fin (d + 1) → ℝ) : Fin 2 → ℝ := ![1, x 0]

/-- Random draws of one call of `_computePODSamplePerDefect`: the Monte-Carlo sample of the other parameters (440), the standard normal deviates of the
trajectories (486), and for each value of the final sample (466) the component of the mixture and a standard normal deviate. -/
structure KrigDraws (X : Type) where
  xs : List X
  xi : List ℝ
  mix : List (ℕ × ℝ)

/-- A value of `ot.Normal(mean, sd)` or `ot.Dirac` for a standard normal deviate. -/
noncomputable def PodLaw.draw : PodLaw → ℝ → ℝ
  | .normal mean sd, z => mean + sd * z
  | .dirac x, _ => x

/-- Trajectory of the deviate `z` at the simulated points of a defect size (435-445, 470-490). -/
noncomputable def krigTrajectory {X : Type} (mean variance : ℝ × X → ℝ) (defect : ℝ) (xs : List X) (z : ℝ) : List ℝ :=
  (mergeDefectInX defect xs).map fun p => z * Real.sqrt (variance p) + mean p

/-- `_computePODSamplePerDefect` (422-468): one law per trajectory, then a sample of the mixture. -/
noncomputable def podSamplePerDefect {X : Type} (mean variance : ℝ × X → ℝ) (detection defect : ℝ) (w : KrigDraws X) : List ℝ :=
  let laws := w.xi.map fun z => podLaw detection (krigTrajectory mean variance defect w.xs z)
  w.mix.map fun c => (laws.getD c.1 (.dirac 0)).draw c.2

/-- A point of the input space: the defect, then the other parameters. -/
def fullPoint {d : ℕ} (p : ℝ × (Fin d → ℝ)) : Fin (d + 1) → ℝ := Fin.cons p.1 p.2

/-- The simulation part of `KrigingPOD.run` (198-217) with the model built on a design, `rows = simulationSize * samplingSize`; `w i` are the draws for
the `i`-th defect size. -/
noncomputable def krigingDesignRun {n q d : ℕ} (k : (Fin (d + 1) → ℝ) → (Fin (d + 1) → ℝ) → ℝ) (f : (Fin (d + 1) → ℝ) → Fin q → ℝ)
    (sample : Fin n → Fin (d + 1) → ℝ) (y : Fin n → ℝ) (detection : ℝ) (rows : ℕ) (w : ℕ → KrigDraws (Fin d → ℝ)) : Meth SimAttrs Unit :=
  krigingRunSim rows fun i a =>
    podSamplePerDefect (fun p => designMean k f sample y (fullPoint p)) (fun p => designVar k f sample (fullPoint p)) detection a (w i)

end Verif.Model
