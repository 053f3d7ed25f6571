import Verif.Py.Basic
import Verif.Py.Float
import Verif.Py.Sample
import Mathlib.Data.Real.Basic

/-!
# PLI for each defect size: `PLIBase` of _pli_pod.py

Model of /repo/otpod/_pli_pod.py 68-355.  One Monte-Carlo simulation and one PLI object per defect size; both are parameters
of a run (they are random).  `Obj` is the type of the PLI objects; the list `_pli` starts with the placeholder `object`
(here `none`).
-/

namespace Verif.Model
open Verif.Py

/-- A three dimensional numpy array. -/
structure Cube where
  n0 : ℕ
  n1 : ℕ
  n2 : ℕ
  v : ℕ → ℕ → ℕ → F ℝ

/-- The attributes. `kept` is `none` until `_keepedDefect` exists. -/
structure PliPod (Obj : Type) where
  nDelta : ℕ
  dim : ℕ
  lo : ℝ
  hi : ℝ
  defectSizes : List ℝ
  defectNumber : ℕ
  indices : Cube
  pli : List (Option Obj)
  kept : Option (List ℕ)

/-- `_initializeResultMatrix`, lines 68-78. -/
def initMatrix {Obj : Type} (s : PliPod Obj) : PliPod Obj :=
  { s with indices := ⟨s.nDelta, s.dim, s.defectNumber, fun _ _ _ => .fin 0⟩,
           pli := List.replicate s.defectNumber none }

/-- State after `__init__`, lines 22-66, for the defect sizes of the POD; `lo`, `hi`: extreme defects of its data. -/
def pliPodInit {Obj : Type} (nDelta dim : ℕ) (lo hi : ℝ) (sizes : List ℝ) : PliPod Obj :=
  initMatrix ⟨nDelta, dim, lo, hi, sizes, sizes.length, ⟨0, 0, 0, fun _ _ _ => .fin 0⟩, [], none⟩

/-- `setDefectSizes`, lines 145-169: the sizes are stored before they are checked. -/
noncomputable def pliSetDefectSizes {Obj : Type} (size : List ℝ) : Meth (PliPod Obj) Unit := fun s =>
  if size = [] then (.error ⟨.valueError, "need at least one array to concatenate"⟩, s)
  else
    let sorted := sortR size
    let s1 := { s with defectSizes := sorted }
    if sorted.getLastD 0 > s.hi ∨ sorted.headD 0 < s.lo then (.error ⟨.valueError, "Defect sizes must range between"⟩, s1)
    else (.ok (), initMatrix { s1 with defectNumber := sorted.length })

/-- What a run meets at a defect size: the probability estimate, and the PLI object with its matrix (delta, marginal) or
the exception of building or running it. -/
structure RunEnv (Obj : Type) where
  pf : ℕ → ℝ → ℝ
  build : ℕ → ℝ → Res (Obj × (ℕ → ℕ → F ℝ))

/-- `self._indices[:, :, i] = m`. -/
def Cube.setSlice (c : Cube) (i : ℕ) (m : ℕ → ℕ → F ℝ) : Res Cube :=
  if i < c.n2 then .ok { c with v := fun a b k => if k = i then m a b else c.v a b k }
  else .error ⟨.indexError, "index out of bounds"⟩

/-- Body of the loop of `run`, lines 118-134, for defect index `i` and size `d`; state: attributes with the kept list. -/
noncomputable def pliRunStep {Obj : Type} (env : RunEnv Obj) (i : ℕ) (d : ℝ) : Meth (PliPod Obj × List ℕ) Unit := fun (s, kept) =>
  let pf := env.pf i d
  if pf > 1 / 1000 ∧ pf < 999 / 1000 then
    match env.build i d with
    | .error e => (.error e, (s, kept))
    | .ok (obj, m) =>
      if i < s.pli.length then
        let s1 := { s with pli := s.pli.set i (some obj) }
        match s1.indices.setSlice i m with
        | .error e => (.error e, (s1, kept))
        | .ok c => (.ok (), ({ s1 with indices := c }, kept))
      else (.error ⟨.indexError, "list assignment index out of range"⟩, (s, kept))
  else if i ∈ kept then
    let kept' := kept.erase i
    match s.indices.setSlice i (fun _ _ => .nan) with
    | .error e => (.error e, (s, kept'))
    | .ok c => (.ok (), ({ s with indices := c }, kept'))
  else (.error ⟨.valueError, "list.remove(x): x not in list"⟩, (s, kept))

/-- The loop, lines 117-134, over (index, size) pairs. -/
noncomputable def pliRunLoop {Obj : Type} (env : RunEnv Obj) : List (ℕ × ℝ) → Meth (PliPod Obj × List ℕ) Unit
  | [] => fun s => (.ok (), s)
  | (i, d) :: rest => fun s =>
    match pliRunStep env i d s with
    | (.error e, s') => (.error e, s')
    | (.ok (), s') => pliRunLoop env rest s'

/-- `run`, lines 98-143.  `_keepedDefect` is assigned before the loop and mutated in it, so it is visible even when the loop
fails.  The warning (lines 136-143) indexes the sizes with the kept list. -/
noncomputable def pliRun {Obj : Type} (env : RunEnv Obj) : Meth (PliPod Obj) Unit := fun s =>
  let pairs := (List.range s.defectSizes.length).zip s.defectSizes
  match pliRunLoop env pairs (s, List.range s.defectNumber) with
  | (.error e, (s', kept)) => (.error e, { s' with kept := some kept })
  | (.ok (), (s', kept)) =>
    if kept.length ≠ s'.defectNumber ∧ (kept.all fun i => decide (i < s'.defectSizes.length)) = false then
      (.error ⟨.indexError, "index out of bounds"⟩, { s' with kept := some kept })
    else (.ok (), { s' with kept := some kept })

/-- `getPLIObject`, lines 257-274 (and the guard of `drawIndices`, lines 341-355), for a non-negative index. -/
def getPLIObject {Obj : Type} (s : PliPod Obj) (i : ℕ) : Res (Option Obj) :=
  match s.kept with
  | none => .error ⟨.attributeError, "_keepedDefect"⟩
  | some kept =>
    if i ∈ kept then
      match s.pli[i]? with
      | some o => .ok o
      | none => .error ⟨.indexError, "list index out of range"⟩
    else .error ⟨.exception, "The indices have not been computed for this defect."⟩

/-! ## Slicing -/

/-- Results of indexing: arrays of dimension 0 to 3. -/
inductive Nd
  | d0 (x : F ℝ)
  | d1 (n : ℕ) (v : ℕ → F ℝ)
  | d2 (n m : ℕ) (v : ℕ → ℕ → F ℝ)
  | d3 (c : Cube)

/-- An integer index on an axis of length `n`: negative values count from the end. -/
def resolveIdx (n : ℕ) (i : ℤ) : Res ℕ :=
  if 0 ≤ i ∧ i < n then .ok i.toNat
  else if i < 0 ∧ 0 ≤ i + n then .ok (i + n).toNat
  else .error ⟨.indexError, "index is out of bounds"⟩

/-- One axis of a numpy basic index: `none` is `:`. -/
def resolveSel (n : ℕ) : Option ℤ → Res (Option ℕ)
  | none => .ok none
  | some i =>
    match resolveIdx n i with
    | .error e => .error e
    | .ok k => .ok (some k)

/-- `c[s0, s1, s2]` with integers and full slices. -/
def Cube.index (c : Cube) (s0 s1 s2 : Option ℤ) : Res Nd :=
  match resolveSel c.n0 s0 with
  | .error e => .error e
  | .ok a =>
    match resolveSel c.n1 s1 with
    | .error e => .error e
    | .ok b =>
      match resolveSel c.n2 s2 with
      | .error e => .error e
      | .ok k =>
        .ok (match a, b, k with
          | none, none, none => .d3 c
          | none, none, some k => .d2 c.n0 c.n1 fun i j => c.v i j k
          | none, some b, none => .d2 c.n0 c.n2 fun i k => c.v i b k
          | some a, none, none => .d2 c.n1 c.n2 fun j k => c.v a j k
          | none, some b, some k => .d1 c.n0 fun i => c.v i b k
          | some a, none, some k => .d1 c.n1 fun j => c.v a j k
          | some a, some b, none => .d1 c.n2 fun k => c.v a b k
          | some a, some b, some k => .d0 (c.v a b k))

/-- `getIndices`, lines 276-311, branch by branch. -/
def getIndices (c : Cube) (idelta marginal idefect : Option ℤ) : Res Nd :=
  if idelta = none ∧ marginal = none ∧ idefect = none then c.index none none none
  else if idelta = none ∧ marginal = none then c.index none none idefect
  else if idelta = none ∧ idefect = none then c.index none marginal none
  else if idefect = none ∧ marginal = none then c.index idelta none none
  else if idelta = none then c.index none marginal idefect
  else if marginal = none then c.index idelta none idefect
  else if idefect = none then c.index idelta marginal none
  else c.index idelta marginal idefect

end Verif.Model
