import Verif.Model.Figure
import Verif.Model.HitMiss

/-!
# The graphs saved during an adaptive run

/repo/otpod/_adaptive_signal_pod.py 398-420 and /repo/otpod/_adaptive_hitmiss_pod.py 380-400, with `setGraphActive(True, p, c, directory)`.
Matplotlib adds the extension `.png` to the names, which is left out here.
-/

namespace Verif.Model
open Verif.Py

/-- The directory given to `setGraphActive`: does it exist, and the figures in it by name. -/
structure GraphDir where
  exist : Bool
  files : String → Option PodFigure

/-- `fig.savefig(os.path.join(directory, name))`: an existing file is overwritten; FileNotFoundError (kind `runtime` here) without the directory. -/
def GraphDir.save (name : String) (fig : PodFigure) : Meth GraphDir Unit := fun d =>
  if d.exist then (.ok (), { d with files := fun n => if n = name then some fig else d.files n })
  else (.error ⟨.runtime, "No such file or directory"⟩, d)

/-- `if not os.path.exists(directory): os.makedirs(directory)` (_adaptive_signal_pod.py 413-414); the creation succeeds. -/
def GraphDir.make (d : GraphDir) : GraphDir := { d with exist := true }

/-- The loop of `AdaptiveSignalPOD.run` (244-420); `it` is `iteration` before its increment. -/
noncomputable def adLoopSave {X M : Type} (env : AdEnv X M) (draw : ℕ → AdAttrs X M → Res PodFigure) (ref : M) :
    ℕ → ℕ → List X → Option ℕ → M → Meth (AdAttrs X M × GraphDir) M
  | 0, _, _, _, m => fun s => (.ok m, s)
  | n + 1, it, cand, idx, m => fun s =>
    match adIter env ref it cand idx m s.1 with
    | (.error e, s') => (.error e, (s', s.2))
    | (.ok (cand', idx', m'), s') =>
      match draw it s' with
      | .error e => (.error e, (s', s.2))
      | .ok fig =>
        match GraphDir.save ("AdaptiveSignalPOD_" ++ toString (it + 1)) fig s.2.make with
        | (.error e, d) => (.error e, (s', d))
        | (.ok (), d) => adLoopSave env draw ref n (it + 1) cand' idx' m' (s', d)

/-- `AdaptiveSignalPOD.run` (171-425) with graphs saved in a directory. -/
noncomputable def adRunSave {X M : Type} (env : AdEnv X M) (draw : ℕ → AdAttrs X M → Res PodFigure) (cands : List X) (n : ℕ) :
    Meth (AdAttrs X M × GraphDir) M := fun s =>
  match env.fit s.1.input s.1.signals with
  | .error e => (.error e, s)
  | .ok m0 => adLoopSave env draw m0 n 0 cands none m0 ({ s.1 with model := some m0 }, s.2)

/-- The loop of `AdaptiveHitMissPOD.run` (265-400); `draw` is the POD with the aggregated classifier and its figure (381-389).  The directory is not
created. -/
noncomputable def hmLoopSave {X : Type} (env : HMEnv X) (draw : HMLocals X → HMAttrs X → Res PodFigure) (cand : List X) (nIni nMore : ℕ) :
    ℕ → HMLocals X → Meth (HMAttrs X × GraphDir) (HMLocals X)
  | 0, loc => fun s => if loc.nAdded < nMore then (.error ⟨.runtime, "out of fuel"⟩, s) else (.ok loc, s)
  | fuel + 1, loc => fun s =>
    if loc.nAdded < nMore then
      match hmIter env cand nIni nMore loc s.1 with
      | (.error e, s') => (.error e, (s', s.2))
      | (.ok loc', s') =>
        match draw loc' s' with
        | .error e => (.error e, (s', s.2))
        | .ok fig =>
          match GraphDir.save ("AdaptiveHitMissPOD_" ++ toString loc'.it) fig s.2 with
          | (.error e, d) => (.error e, (s', d))
          | (.ok (), d) => hmLoopSave env draw cand nIni nMore fuel loc' (s', d)
    else (.ok loc, s)

/-- `AdaptiveHitMissPOD.run` (178-403) with graphs saved in a directory. -/
noncomputable def hmRunSave {X : Type} (env : HMEnv X) (draw : HMLocals X → HMAttrs X → Res PodFigure) (cand : List X) (nMore : ℕ) :
    Meth (HMAttrs X × GraphDir) Unit := fun s =>
  if s.1.numpy then (.error ⟨.attributeError, "'numpy.ndarray' object has no attribute 'getSize'"⟩, s)
  else
    let s1 := { s.1 with numpy := true }
    match env.fit 0 s1.input s1.labels with
    | .error e => (.error e, (s1, s.2))
    | .ok g =>
      match hmLoopSave env draw cand s.1.input.length nMore nMore ⟨[.base g], .base g, none, 0, 0⟩
          ({ s1 with model := some (.base g, none) }, s.2) with
      | (.error e, s2) => (.error e, s2)
      | (.ok _, s2) => (.ok (), ({ s2.1 with numpy := false }, s2.2))

end Verif.Model
