import Verif.Model.PliPod

/-!
# The arrays returned by `PLIBase.getIndices`

/repo/otpod/_pli_pod.py 68-78 (a new array), 98-143 (written in place), 145-169, 276-311 (numpy basic indexing: with at least one full slice the
result is a view of the array, with three integers it is a number).  The array of the object has a number; arrays that are no longer the one of the
object stay alive while the caller holds views of them.
-/

namespace Verif.Model
open Verif.Py

/-- The object with the result arrays it had before; `pod.indices` is the content of array number `old.length`. -/
structure PliMem (Obj : Type) where
  old : List Cube
  pod : PliPod Obj

/-- All result arrays by number. -/
def PliMem.arrays {Obj : Type} (m : PliMem Obj) : List Cube := m.old ++ [m.pod.indices]

/-- `run` (98-143): assigns slices of the same array. -/
noncomputable def memRun {Obj : Type} (env : RunEnv Obj) : Meth (PliMem Obj) Unit := fun m =>
  ((pliRun env m.pod).1, ⟨m.old, (pliRun env m.pod).2⟩)

/-- `setDefectSizes` (145-169): when the sizes are accepted, `_initializeResultMatrix` makes a new array. -/
noncomputable def memSetSizes {Obj : Type} (size : List ℝ) : Meth (PliMem Obj) Unit := fun m =>
  match pliSetDefectSizes size m.pod with
  | (.ok u, p) => (.ok u, ⟨m.old ++ [m.pod.indices], p⟩)
  | (.error e, p) => (.error e, ⟨m.old, p⟩)

/-- What the caller holds: a number, or a view of an array (`none` is a full slice). -/
inductive Held
  | number (x : F ℝ)
  | view (array : ℕ) (s0 s1 s2 : Option ℤ)

/-- `getIndices` (276-311). -/
def memGet {Obj : Type} (m : PliMem Obj) (idelta marginal idefect : Option ℤ) : Res Held :=
  match getIndices m.pod.indices idelta marginal idefect with
  | .error e => .error e
  | .ok (.d0 x) => .ok (.number x)
  | .ok _ => .ok (.view m.old.length idelta marginal idefect)

/-- The content of a held result at a later time. -/
def readHeld {Obj : Type} (m : PliMem Obj) : Held → Res Nd
  | .number x => .ok (.d0 x)
  | .view a s0 s1 s2 =>
    match m.arrays[a]? with
    | none => .error ⟨.runtime, "no such array"⟩
    | some c => c.index s0 s1 s2

end Verif.Model
