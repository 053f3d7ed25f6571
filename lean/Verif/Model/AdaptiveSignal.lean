import Verif.Py.Basic
import Verif.Py.Float
import Verif.Model.Base

/-!
# The enrichment loop of `AdaptiveSignalPOD.run`

Model of /repo/otpod/_adaptive_signal_pod.py 171-461.  `X` points, `M` kriging models.  The criterion of a candidate
(lines 270-330: temporary kriging model, simulated POD, variance plus squared bias) is an external function that may raise
and may return NaN; it reads the iteration (through the state of the random generator), the prediction function `metamodel`,
the current kriging model (covariance and basis), the design, the rank and the candidate.
-/

namespace Verif.Model
open Verif.Py

/-- External functions used by the loop. -/
structure AdEnv (X M : Type) where
  /-- the user's physical model -/
  physical : X → Res ℝ
  /-- iteration, prediction function, current model, inputs, signals, rank, candidate -/
  crit : ℕ → M → M → List X → List ℝ → ℕ → X → Res (F ℝ)
  /-- lines 363-393: new kriging model of a design, from the current model (its covariance model and its basis); see
  `updateFit` in Model/KrigingFit for the code -/
  refit : M → List X → List ℝ → Res M
  /-- lines 207-235: initial model -/
  fit : List X → List ℝ → Res M

/-- Attributes of the object; `boxCox` holds the exponent and the shift. -/
structure AdAttrs (X M : Type) where
  input : List X
  signals : List ℝ
  boxCox : Option (ℝ × ℝ)
  model : Option M

/-- Lines 347-355: signal of a point, transformed when Box-Cox is enabled. -/
noncomputable def respond {X M : Type} (env : AdEnv X M) (bc : Option (ℝ × ℝ)) (x : X) : Res ℝ :=
  match env.physical x with
  | .error e => .error e
  | .ok y =>
    match bc with
    | none => .ok y
    | some (lam, shift) => boxCoxTransform lam (y + shift)

/-- Lines 270-342: the loop over the candidates from rank `k` on.  The accumulator holds `criterion` and the Python
variable `indexOpt` (`none`: unbound); line 333 replaces them when the new value is strictly smaller. -/
noncomputable def scanGo {X : Type} (f : ℕ → X → Res (F ℝ)) : ℕ → List X → F ℝ × Option ℕ → Res (F ℝ × Option ℕ)
  | _, [], acc => .ok acc
  | k, x :: l, acc =>
    match f k x with
    | .error e => .error e
    | .ok v => scanGo f (k + 1) l (if F.lt v acc.1 then (v, some k) else acc)

/-- One iteration (lines 244-397), from the local variables `doeCandidate` and `indexOpt`.  `criterion` starts from 1e9
(line 269) but `indexOpt` keeps its value of the previous iteration.  Line 345 reads `doeCandidate[indexOpt]`
(UnboundLocalError, or IndexError out of range), line 346 adds the point to `self._input` *before* the physical model is
called in lines 348-355; line 357 erases the candidate. -/
noncomputable def adIter {X M : Type} (env : AdEnv X M) (ref : M) (it : ℕ) (cand : List X) (idx : Option ℕ) (m : M) :
    Meth (AdAttrs X M) (List X × Option ℕ × M) := fun s =>
  match scanGo (env.crit it ref m s.input s.signals) 0 cand (.fin 1000000000, idx) with
  | .error e => (.error e, s)
  | .ok (_, none) => (.error ⟨.unboundLocal, "indexOpt"⟩, s)
  | .ok (_, some k) =>
    match cand[k]? with
    | none => (.error ⟨.indexError, ""⟩, s)
    | some x =>
      let s1 := { s with input := s.input ++ [x] }
      match respond env s.boxCox x with
      | .error e => (.error e, s1)
      | .ok y =>
        let s2 := { s1 with signals := s.signals ++ [y] }
        match env.refit m s2.input s2.signals with
        | .error e => (.error e, s2)
        | .ok m' => (.ok (cand.eraseIdx k, some k, m'), { s2 with model := some m' })

/-- The `while` loop (lines 242-425); the prediction function `ref` is the one built before the loop (line 231). -/
noncomputable def adLoop {X M : Type} (env : AdEnv X M) (ref : M) :
    ℕ → ℕ → List X → Option ℕ → M → Meth (AdAttrs X M) M
  | 0, _, _, _, m => fun s => (.ok m, s)
  | n + 1, it, cand, idx, m => fun s =>
    match adIter env ref it cand idx m s with
    | (.error e, s') => (.error e, s')
    | (.ok (cand', idx', m'), s') => adLoop env ref n (it + 1) cand' idx' m' s'

/-- `AdaptiveSignalPOD.run` up to the final POD (lines 196-425); `cands` is the candidate design of lines 198-205.
Graphs and messages are left out. -/
noncomputable def adRun {X M : Type} (env : AdEnv X M) (cands : List X) (n : ℕ) : Meth (AdAttrs X M) M := fun s =>
  match env.fit s.input s.signals with
  | .error e => (.error e, s)
  | .ok m0 => adLoop env m0 n 0 cands none m0 { s with model := some m0 }

/-- `getOutputDOE` (lines 453-461). -/
noncomputable def getOutputDOE {X M : Type} (s : AdAttrs X M) : List ℝ :=
  match s.boxCox with
  | none => s.signals
  | some (lam, shift) => s.signals.map fun y => boxCoxInv lam y - shift

end Verif.Model
