import Verif.Model.Classifier
import Verif.Model.HitMissRun

/-!
# Random numbers of `AdaptiveHitMissPOD.run`

/repo/otpod/_adaptive_hitmiss_pod.py 199-253, 308-340, 403-409.  The candidates (207) and the sample of the parameters (835) come from the OpenTURNS
generator and are parameters.  scikit-learn takes its random numbers from the global generator of numpy unless the classifier has a `random_state`: `SVC`
is built without one (224-233), `ExtraTreesClassifier` with the fourth parameter (241-251).
-/

namespace Verif.Model
open Verif.Py

/-- External functions; training receives the number that initialises its random choices. -/
structure SeededSk (X : Type) where
  physical : X → Res Bool
  train : Estimator PyParam → PyParam → List X → List Bool → Res (X → F ℝ)
  argsort : List (F ℝ) → List ℕ

/-- The number used at a fit (`check_random_state` of scikit-learn): the fourth argument of `ExtraTreesClassifier` when it is not `None`, otherwise one
drawn from the generator of numpy. -/
def fitSeed (est : Estimator PyParam) (draw : ℕ) : PyParam :=
  if est.kind = "rf" then
    match est.args.2.2.2 with
    | .pyNone => .num draw
    | r => r
  else .num draw

/-- The environment of a run for a stream of numbers of the numpy generator: one for each fit. -/
def SeededSk.withStream {X : Type} (sk : SeededSk X) (st : ℕ → ℕ) : SkEnv PyParam X :=
  ⟨sk.physical, fun est it => sk.train est (fitSeed est (st it)), sk.argsort⟩

/-- The number of a floating point value; the values that are not numbers are not studied here (C224). -/
def numberOf : F ℝ → ℝ
  | .fin x => x
  | _ => 0

/-- The whole run: enrichment (216-401), then the POD of the last classifier (403-409). -/
noncomputable def hmPodRun {X : Type} (sk : SeededSk (ℝ × X)) (st : ℕ → ℕ) (o : HMOptions (List (List PyParam))) (cand : List (ℝ × X)) (nMore : ℕ)
    (zero : ℝ × X) (xs : List X) : Meth (HMAttrs (ℝ × X) × SimAttrs) Unit := fun (h, s) =>
  match hmFullRun (sk.withStream st) o cand nMore h with
  | (.error e, h1) => (.error e, h1, s)
  | (.ok _, h1) =>
    match h1.model with
    | none => (.error ⟨.attributeError, "_classifierModel"⟩, h1, s)
    | some (c, v) =>
      let r := hitMissRunSim zero (fun z => numberOf (c.eval v z)) xs s
      (r.1, h1, r.2)

end Verif.Model
