import Verif.Model.KrigingFit
import Verif.Model.Metamodel

/-!
# Complete runs of the two kriging classes

`KrigingPOD.run` (_kriging_pod.py 142-217) when no kriging result was given by the user, and `AdaptiveSignalPOD.run`
(_adaptive_signal_pod.py 171-449): fit, enrichment, and the final simulation.  `sim r xs i a` is the sample of PODs simulated for the
`i`-th defect size `a` with the kriging result `r` and the transformation `x ↦ (x - mean) / deviation` of the design `xs`; it contains
the detection threshold, the law of the parameters and the random draws.  Messages and graphs are left out.
-/

namespace Verif.Model
open Verif.Py

variable {X C B R : Type}

/-- `KrigingPOD.run`: fit on the design, then simulate with the transformation of the design (line 160). -/
noncomputable def krigingPodRun (ext : KrigExt (List X × List ℝ) C B R) (unit : ℕ → ℕ → List (List ℝ)) (size : ℤ) (rows : ℕ)
    (sim : R → List X → ℕ → ℝ → List ℝ) (xs : List X) (ys : List ℝ) : Meth (KState C B R × SimAttrs) Unit := fun s =>
  match krigingPodFit ext unit size (xs, ys) s.1 with
  | (.error e, k) => (.error e, (k, s.2))
  | (.ok r, k) =>
    let q := krigingRunSim rows (sim r xs) s.2
    (q.1, (k, q.2))

/-- `AdaptiveSignalPOD.run`: the enrichment, then lines 426-446 with `self._krigingResult` and the variable `transformation`, which
was built with the model of the current design (lines 209 and 364). -/
noncomputable def adaptivePodRun (ext : KrigExt (List X × List ℝ) C B R) (unit : ℕ → ℕ → List (List ℝ)) (size : ℤ) (s0 : KState C B R)
    (physical : X → Res ℝ) (crit : ℕ → R → R → List X → List ℝ → ℕ → X → Res (F ℝ)) (cands : List X) (n rows : ℕ)
    (sim : R → List X → ℕ → ℝ → List ℝ) : Meth (AdAttrs X R × SimAttrs) Unit := fun s =>
  match adRun (krigEnv ext unit size s0 physical crit) cands n s.1 with
  | (.error e, a) => (.error e, (a, s.2))
  | (.ok r, a) =>
    let q := krigingRunSim rows (sim r a.input) s.2
    (q.1, (a, q.2))

end Verif.Model
