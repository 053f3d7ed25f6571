import Verif.Py.Basic
import Verif.Py.Float

/-!
# `DataHandling.filterCensoredData` — /repo/otpod/_math_tools.py, lines 239-298
-/

namespace Verif.Model
open Verif.Py

/-- Boolean-mask indexing `a[mask]` of a numpy array (rows kept where the mask is true, in order). -/
def maskSelect {α : Type*} : List α → List Bool → List α
  | x :: xs, true :: bs => x :: maskSelect xs bs
  | _ :: xs, false :: bs => maskSelect xs bs
  | _, _ => []

/-- The four samples returned by the filter, in the order of the `return` statement (line 298). -/
structure Filtered (α K : Type*) where
  inputUnc : List α
  inputNoise : List α
  inputSat : List α
  signalsUnc : List (F K)
  deriving Repr, DecidableEq

variable {α K : Type*}

/-- Effective low threshold: `None` becomes `-sys.float_info.max` (lines 271-272).  `fmax` is
`sys.float_info.max`. -/
def effNoise [Neg K] (fmax : K) : Option (F K) → F K
  | none => .fin (-fmax)
  | some t => t

/-- Effective high threshold: `None` becomes `sys.float_info.max` (lines 273-274). -/
def effSat (fmax : K) : Option (F K) → F K
  | none => .fin fmax
  | some t => t

/-- `DataHandling.filterCensoredData` (_math_tools.py 239-298).  The rows of `inputSample` are abstract
(`α`); `signals` is its one column.  The four masks are computed separately, as in lines 280-290.
Simplification: the two arrays have the same length (otherwise numpy raises; the constructors assert it). -/
def filterCensoredData [LinearOrder K] [Neg K] (fmax : K) (inputSample : List α) (signals : List (F K))
    (noiseThres saturationThres : Option (F K)) : Filtered α K :=
  let noise := effNoise fmax noiseThres
  let sat := effSat fmax saturationThres
  { inputUnc := maskSelect inputSample (signals.map fun s => F.gt s noise && F.lt s sat)
    inputNoise := maskSelect inputSample (signals.map fun s => F.le s noise)
    inputSat := maskSelect inputSample (signals.map fun s => F.ge s sat)
    signalsUnc := maskSelect signals (signals.map fun s => F.gt s noise && F.lt s sat) }

end Verif.Model
