import Verif.Model.Analysis
import Verif.Model.CensoredFit
import Verif.Model.AdaptiveSignal
import Verif.Model.HitMiss

/-!
# Settings of the application that the library touches

The flags of the OpenTURNS log (_univariate_linear_model_analysis.py 352, _math_tools.py 377-378) and the interactive mode of matplotlib
(_adaptive_signal_pod.py 241, 451; _adaptive_hitmiss_pod.py 260, 414).  `LinearBoxCoxFactory.build` (_math_tools.py 60) is not called.
-/

namespace Verif.Model
open Verif.Py

/-- Kinds of messages of OpenTURNS. -/
inductive LogFlag
  | dbg | wrapper | info | user | warn | error | trace
  deriving DecidableEq

/-- `shown`: the flags given to the last `ot.Log.Show`; `interactive`: `plt.isinteractive()`. -/
structure AppSettings where
  shown : LogFlag → Bool
  interactive : Bool

/-- `ot.Log.Show(ot.Log.WARN)`: the flags are replaced. -/
def AppSettings.showWarn (g : AppSettings) : AppSettings := { g with shown := fun f => decide (f = .warn) }

/-- `UnivariateLinearModelAnalysis.getResults` (347-388), effect on the settings. -/
def getResultsSettings (_ : Analysis) : Meth AppSettings Unit := fun g => (.ok (), g.showWarn)

/-- `computeLinearParametersCensored` (_math_tools.py 342-383), effect on the settings: the flags change when the optimiser reached its maximal
number of iterations. -/
def censoredFitSettings {X : Type} (o : FitOutcome X) : Meth AppSettings X := fun g =>
  match o.result with
  | .error e => (.error e, g)
  | .ok (x, reached) => (.ok x, if reached then g.showWarn else g)

/-- `AdaptiveSignalPOD.run` (171-451), effect on the settings: `plt.ion()` after the first fit, `plt.ioff()` as last statement.  `pod` is the
computation of the POD after the loop (420-447). -/
noncomputable def adRunSettings {X M : Type} (env : AdEnv X M) (cands : List X) (n : ℕ) (s : AdAttrs X M) (pod : M → Res Unit) : Meth AppSettings Unit :=
  fun g =>
    match env.fit s.input s.signals with
    | .error e => (.error e, g)
    | .ok _ =>
      let g1 := { g with interactive := true }
      match (adRun env cands n s).1 with
      | .error e => (.error e, g1)
      | .ok m =>
        match pod m with
        | .error e => (.error e, g1)
        | .ok () => (.ok (), { g1 with interactive := false })

/-- `AdaptiveHitMissPOD.run` (178-414), effect on the settings; `pod` is the computation of lines 403-409. -/
noncomputable def hmRunSettings {X : Type} (env : HMEnv X) (cand : List X) (nMore : ℕ) (s : HMAttrs X) (pod : HMAttrs X → Res Unit) : Meth AppSettings Unit :=
  fun g =>
    if s.numpy then (.error ⟨.attributeError, "'numpy.ndarray' object has no attribute 'getSize'"⟩, g)
    else
      match env.fit 0 s.input s.labels with
      | .error e => (.error e, g)
      | .ok _ =>
        let g1 := { g with interactive := true }
        match hmRun env cand nMore s with
        | (.error e, _) => (.error e, g1)
        | (.ok _, s') =>
          match pod s' with
          | .error e => (.error e, g1)
          | .ok () => (.ok (), { g1 with interactive := false })

/-- The calls that can change the settings. -/
inductive SettingsCall (X M : Type)
  | getResults (a : Analysis)
  | censoredFit (o : FitOutcome (ℝ × ℝ × ℝ))
  | adaptiveSignal (env : AdEnv X M) (cands : List X) (n : ℕ) (s : AdAttrs X M) (pod : M → Res Unit)
  | adaptiveHitMiss (env : HMEnv X) (cand : List X) (nMore : ℕ) (s : HMAttrs X) (pod : HMAttrs X → Res Unit)

/-- The settings after one call; the caller catches the exceptions. -/
noncomputable def SettingsCall.after {X M : Type} (g : AppSettings) : SettingsCall X M → AppSettings
  | .getResults a => (getResultsSettings a g).2
  | .censoredFit o => (censoredFitSettings o g).2
  | .adaptiveSignal env cands n s pod => (adRunSettings env cands n s pod g).2
  | .adaptiveHitMiss env cand nMore s pod => (hmRunSettings env cand nMore s pod g).2

end Verif.Model
