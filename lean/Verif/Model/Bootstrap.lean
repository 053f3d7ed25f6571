import Verif.Model.LinearRun

/-!
# `UnivariateLinearModelPOD.run`: choice of the POD model, bootstrap

/repo/otpod/_univariate_linear_model_pod.py 139-213 and 461-530.  Random draws are parameters of a run: the bivariate normal and
chi draws of the Gaussian band, the resamples of the bootstrap (with the random starts of the censored fit of each of them).
-/

namespace Verif.Model
open Verif.Py

/-- The argument `resDistFact` (70-75): `None`, `NormalFactory`, or another factory, known by its class name. -/
inductive ResFact
  | binomial
  | normal
  | other (name : String)

/-- External functions of a run.  `fitLaw name residuals` is `resDistFact.build(residuals).computeComplementaryCDF`; building the
law may raise. -/
structure PodEnv where
  lin : LinEnv
  fitLaw : String → List ℝ → Res (ℝ → ℝ)

/-- The random draws of one run. -/
structure PodDraws where
  /-- random starts of the fit of the data -/
  starts : ℕ → ℝ × ℝ × ℝ
  /-- draws `(z0, z1, sigma)` of `_PODgaussModelCl` (437-444) -/
  gauss : List (ℝ × ℝ × ℝ)
  /-- `bootstrapExp.generate()`, once per simulation (510), with the random starts of the fit on it -/
  resamples : List (List (ℝ × ℝ) × (ℕ → ℝ × ℝ × ℝ))

/-- Constructor arguments used by `run`. -/
structure PodData where
  obs : List (ℝ × ℝ)
  detection : ℝ
  noise : Option ℝ
  sat : Option ℝ
  boxCox : Bool
  censored : Bool
  fact : ResFact

/-- Attributes set by `run`: the dictionary of the linear model, the POD function, the collection of curves (`none` before). -/
structure PodRunAttrs where
  model : Option LinModelResult
  pod : Option (ℝ → ℝ)
  coll : Option (List (ℝ → ℝ))

/-- The POD function (174-184): `_PODbinomialModel`, `_PODgaussModel` or `_PODbootstrapModel` (461-469). -/
noncomputable def podFunction (env : PodEnv) (fact : ResFact) (r : LinModelResult) : Res (ℝ → ℝ) :=
  let lin := fun x => r.fit.intercept + r.fit.slope * x
  match fact with
  | .binomial => .ok (podBinomial r.fit.residuals r.detection lin)
  | .normal => .ok (podGauss (fun i : Fin r.obs.length => r.obs[i].1) r.fit.stderr r.detection lin)
  | .other name =>
    match env.fitLaw name r.fit.residuals with
    | .error e => .error e
    | .ok ccdf => .ok fun x => ccdf (r.detection - lin x)

/-- Constructor of the local class `buildPODModel` of `_PODbootstrapModelCl` (472-502): a new linear model on the resample, a new
law of its residuals. -/
noncomputable def bootstrapModel (fmax : ℝ) (env : PodEnv) (d : PodData) (name : String)
    (sample : List (ℝ × ℝ) × (ℕ → ℝ × ℝ × ℝ)) : Res (ℝ → ℝ) :=
  match computeLinearModel fmax env.lin sample.2 sample.1 d.detection d.noise d.sat d.boxCox d.censored with
  | .error e => .error e
  | .ok r =>
    match env.fitLaw name r.fit.residuals with
    | .error e => .error e
    | .ok ccdf => .ok (bootstrapCurve ccdf r.detection r.fit.intercept r.fit.slope)

/-- The loop of `_PODbootstrapModelCl` (509-530). -/
noncomputable def bootstrapColl (fmax : ℝ) (env : PodEnv) (d : PodData) (name : String) :
    List (List (ℝ × ℝ) × (ℕ → ℝ × ℝ × ℝ)) → Res (List (ℝ → ℝ))
  | [] => .ok []
  | s :: rest =>
    match bootstrapModel fmax env d name s with
    | .error e => .error e
    | .ok f =>
      match bootstrapColl fmax env d name rest with
      | .error e => .error e
      | .ok fs => .ok (f :: fs)

/-- `run` (139-213).  The attributes of the linear model and the POD function are assigned before the confidence curves are
computed. -/
noncomputable def linearPodRun (fmax : ℝ) (env : PodEnv) (d : PodData) (w : PodDraws) : Meth PodRunAttrs Unit := fun s =>
  match computeLinearModel fmax env.lin w.starts d.obs d.detection d.noise d.sat d.boxCox d.censored with
  | .error e => (.error e, s)
  | .ok r =>
    let s1 := { s with model := some r }
    match podFunction env d.fact r with
    | .error e => (.error e, s1)
    | .ok f =>
      let s2 := { s1 with pod := some f }
      match d.fact with
      | .binomial => (.ok (), s2)
      | .normal =>
        (.ok (), { s2 with coll := some (w.gauss.map fun z =>
          gaussCurve r.fit.intercept r.fit.slope r.detection z.1 z.2.1 z.2.2) })
      | .other name =>
        match bootstrapColl fmax env d name w.resamples with
        | .error e => (.error e, s2)
        | .ok fs => (.ok (), { s2 with coll := some fs })

end Verif.Model
