import Verif.Model.QuantileReg

/-!
# `QuantileRegressionPOD.run` as a whole — /repo/otpod/_quantile_regression_pod.py 99-212

External: the Box-Cox optimiser, `QuantReg(signals, X).fit(level)` (a line for each level) and `ot.Brent().solve` on a line
(`brentLine`).  The bootstrap samples are parameters.
-/

namespace Verif.Model
open Verif.Py

/-- External functions. -/
structure QrEnv (G : Type) where
  boxCox : List ℝ → List ℝ → ℝ → Res (ℝ × G)
  /-- `QuantReg(signals, [1, defects]).fit(level)` -/
  quantReg : List (ℝ × ℝ) → ℝ → QuantFit
  /-- solution returned by the solver on a constant line -/
  pick : ℝ → ℝ → ℝ
  /-- `sys.float_info.max`, also `ot.SpecFunc.MaxScalar` -/
  fmax : ℝ

/-- Constructor arguments and settings used by `run`. -/
structure QrData where
  obs : List (ℝ × ℝ)
  detection : ℝ
  noise : Option ℝ
  sat : Option ℝ
  boxCox : Bool
  censored : Bool
  quantiles : List ℝ

/-- Attributes written by `run`: the filtered and transformed observations with the transformed threshold (123-125), the POD curve (154), the
sample `_defectsPerQuantile` by rows (167, 208), and those of `_run`. -/
structure QrAttrs (G : Type) where
  bc : BoxCoxAttrs G
  data : Option (List (ℝ × ℝ) × ℝ)
  pod : Option (ℝ → Res ℝ)
  rows : Option (List (List ℝ))

/-- The loops of lines 139-146 and 191-206: for each probability level, the line at level `1 - p` is solved for the threshold on the
interval; an exception of the solver leaves the method. -/
noncomputable def qrSolveAll (pick : ℝ → ℝ → ℝ) (fit : ℝ → QuantFit) (det lo hi : ℝ) : List ℝ → Res (List ℝ)
  | [] => .ok []
  | p :: ps =>
    match brentLine pick (qrFitFor fit p) det lo hi with
    | .error e => .error e
    | .ok d =>
      match qrSolveAll pick fit det lo hi ps with
      | .error e => .error e
      | .ok ds => .ok (d :: ds)

/-- The bootstrap loop (168-208); `rows` are the rows assigned so far, the others are rows of zeros. -/
noncomputable def qrBootstrap {G : Type} (env : QrEnv G) (d : QrData) (nSim : ℕ) :
    List (List (ℝ × ℝ)) → List (List ℝ) → QrAttrs G → Res Unit × QrAttrs G
  | [], _, s => (.ok (), s)
  | b :: bs, done, s =>
    match podRun env.fmax env.boxCox b (some d.detection) d.noise d.sat d.boxCox d.censored s.bc with
    | (.error e, bc) => (.error e, { s with bc := bc })
    | (.ok r, bc) =>
      match sampleMax (r.obs.map Prod.fst) with
      | .error e => (.error e, { s with bc := bc })
      | .ok mx =>
        match qrSolveAll env.pick (env.quantReg r.obs) (r.detection.getD 0) (-env.fmax) mx d.quantiles with
        | .error e => (.error e, { s with bc := bc })
        | .ok ds =>
          let done := done ++ [ds]
          qrBootstrap env d nSim bs done
            { s with bc := bc, rows := some (done ++ List.replicate (nSim - done.length) (List.replicate d.quantiles.length 0)) }

/-- `run` (99-212).  `bootstraps` are the `_simulationSize` resamples. -/
noncomputable def qrPodRun {G : Type} (env : QrEnv G) (d : QrData) (bootstraps : List (List (ℝ × ℝ))) : Meth (QrAttrs G) Unit := fun s =>
  match podRun env.fmax env.boxCox d.obs (some d.detection) d.noise d.sat d.boxCox d.censored s.bc with
  | (.error e, bc) => (.error e, { s with bc := bc })
  | (.ok r, bc) =>
    let s1 := { s with bc := bc, data := some (r.obs, r.detection.getD 0) }
    match sampleMax (r.obs.map Prod.fst) with
    | .error e => (.error e, s1)
    | .ok mx =>
      match qrSolveAll env.pick (env.quantReg r.obs) (r.detection.getD 0) 0 mx d.quantiles with
      | .error e => (.error e, s1)
      | .ok ds =>
        match qrCurve ds d.quantiles mx with
        | .error e => (.error e, s1)
        | .ok f =>
          qrBootstrap env d bootstraps.length bootstraps []
            { s1 with
              pod := some f
              rows := some (List.replicate bootstraps.length (List.replicate d.quantiles.length 0)) }

/-- The loss minimised by quantile regression at level `tau`. -/
noncomputable def pinball (tau r : ℝ) : ℝ := if 0 ≤ r then tau * r else (tau - 1) * r

/-- Total loss of a line on the observations. -/
noncomputable def quantLoss (tau : ℝ) (obs : List (ℝ × ℝ)) (b0 b1 : ℝ) : ℝ :=
  (obs.map fun o => pinball tau (o.2 - (b0 + b1 * o.1))).sum

end Verif.Model
