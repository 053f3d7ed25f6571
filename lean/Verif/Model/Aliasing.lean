import Mathlib.Data.List.Basic

/-!
# Objects held by reference

Which python objects are shared between the caller and the POD objects.  An object is an address in a heap; a sample has rows and the names of its
columns, a distribution has a law and the names of its components.  The numerical content (filter, Box-Cox, enrichment, default law) is left to
parameters: only who writes into which object matters here.  A step that python refuses (wrong type, unknown object) changes nothing.

Simplification: an exception inside a run is not followed (see C46 and C50 for these); names of columns of samples made by the library are a function of
the rows, since `ot.Sample` of a numpy array carries default names.
-/

namespace Verif.Model

/-- A mutable OpenTURNS object: `ot.Sample` or `ot.JointDistribution`. -/
inductive AObj (R L : Type) where
  | sample (rows : List R) (desc : List String)
  | law (l : L) (desc : List String)

/-- The classes with a distribution: `PolynomialChaosPOD`, `KrigingPOD`, `AdaptiveSignalPOD`, `AdaptiveHitMissPOD`. -/
inductive AKind where
  | chaos | kriging | signal | hitMiss
  deriving DecidableEq

/-- References held by a POD object: `_inputSample`, `_outputSample` (`_pod.py` 24-25), `_input`, `_signals` (`_adaptive_signal_pod.py` 157-158,
`_adaptive_hitmiss_pod.py` 149-150, `_kriging_pod.py` 130-131, `_polynomial_chaos_pod.py` 128-129), `_distribution`; the flags `_boxCox` and
`_userChaos`. -/
structure APod where
  kind : AKind
  inputSample : ℕ
  outputSample : ℕ
  input : ℕ
  signals : ℕ
  dist : Option ℕ
  boxCox : Bool
  userChaos : Bool

/-- Contents by address, next free address, addresses of the objects made by the caller, addresses the caller holds (made or returned), POD objects. -/
structure AWorld (R L : Type) where
  heap : ℕ → Option (AObj R L)
  next : ℕ
  made : List ℕ
  held : List ℕ
  pods : List APod

/-- Numerical content: `filterCensoredData`, Box-Cox transformation and its inverse, hit/miss labels, points and signals added by a run, default law,
default names. -/
structure AEnv (R L : Type) where
  filterIn : List R → List R → List R
  filterOut : List R → List R → List R
  transform : List R → List R
  inverse : List R → List R
  labels : List R → List R
  addedIn : List R → List R → List R
  addedOut : List R → List R → List R
  defaultLaw : List R → L
  names : List R → List String

variable {R L : Type}

/-- A new object. -/
def AWorld.alloc (w : AWorld R L) (o : AObj R L) : AWorld R L :=
  { w with heap := fun a => if a = w.next then some o else w.heap a, next := w.next + 1 }

/-- Writing into an object. -/
def AWorld.put (w : AWorld R L) (a : ℕ) (o : AObj R L) : AWorld R L :=
  { w with heap := fun b => if b = a then some o else w.heap b }

/-- Rows of a sample, nothing for another object. -/
def AWorld.rows (w : AWorld R L) (a : ℕ) : Option (List R) :=
  match w.heap a with
  | some (.sample r _) => some r
  | _ => none

/-- Replace the references of one POD object. -/
def AWorld.setPod (w : AWorld R L) (k : ℕ) (p : APod) : AWorld R L := { w with pods := w.pods.set k p }

/-- What the caller and the library can do. -/
inductive AOp (R L : Type) where
  /-- the caller makes an object -/
  | make (o : AObj R L)
  /-- the caller writes into an object it holds (an object keeps its class) -/
  | write (a : ℕ) (o : AObj R L)
  /-- a constructor is called with the samples at two addresses -/
  | construct (kind : AKind) (i o : ℕ) (censored boxCox binary : Bool)
  | setPolynomialChaosResult (k : ℕ)
  | setDistribution (k a : ℕ)
  | run (k : ℕ)
  | getInputDOE (k : ℕ)
  | getOutputDOE (k : ℕ)
  | getDistribution (k : ℕ)

/-- Constructor: `_pod.py` 24-25 (copies through numpy), `_run` 302-315 (filtered samples are new, without thresholds the same objects are passed
through), 328-329 (the transformed signals are new); `_adaptive_hitmiss_pod.py` 173-175 (labels in a new array when a detection is given). -/
def aConstruct (env : AEnv R L) (w : AWorld R L) (kind : AKind) (i o : ℕ) (censored boxCox binary : Bool) : AWorld R L :=
  match w.rows i, w.rows o with
  | some x, some y =>
    let ia := w.next
    let w1 := w.alloc (.sample x (env.names x))
    let oa := w1.next
    let w2 := w1.alloc (.sample y (env.names y))
    let x' := if censored then env.filterIn x y else x
    let y' := if censored then env.filterOut x y else y
    let fa := if censored then w2.next else ia
    let w3 := if censored then w2.alloc (.sample x' (env.names x')) else w2
    let ga := if censored then w3.next else oa
    let w4 := if censored then w3.alloc (.sample y' (env.names y')) else w3
    let y'' := if boxCox then env.transform y' else y'
    let ha := if boxCox then w4.next else ga
    let w5 := if boxCox then w4.alloc (.sample y'' (env.names y'')) else w4
    let la := if kind = .hitMiss ∧ binary then w5.next else ha
    let w6 := if kind = .hitMiss ∧ binary then w5.alloc (.sample (env.labels y'') (env.names (env.labels y''))) else w5
    { w6 with pods := w6.pods ++ [⟨kind, ia, oa, fa, la, none, boxCox, false⟩] }
  | _, _ => w

/-- The default distribution of a run: `_polynomial_chaos_pod.py` 672-681, `_kriging_pod.py` 189-195, `_adaptive_signal_pod.py` 188-194,
`_adaptive_hitmiss_pod.py` 190-196. -/
def aDefaultDist (env : AEnv R L) (w : AWorld R L) (k : ℕ) (p : APod) (x : List R) : AWorld R L × APod :=
  match p.dist with
  | some _ => (w, p)
  | none =>
    let p' := { p with dist := some w.next }
    ((w.alloc (.law (env.defaultLaw x) (env.names x))).setPod k p', p')

/-- `run`.  Chaos: without a user result `_buildChaosAlgo` makes the default distribution (672-681) and writes the names of the input sample into the
distribution (684), whoever made it.  Kriging: default distribution only.  Adaptive signal: `self._input.add`, `self._signals.add` write into the
samples (346-355).  Adaptive hit-miss: the samples are replaced (217-218, 303-304, 401-402). -/
def aRun (env : AEnv R L) (w : AWorld R L) (k : ℕ) : AWorld R L :=
  match w.pods[k]? with
  | none => w
  | some p =>
    match w.heap p.input, w.heap p.signals with
    | some (.sample x dx), some (.sample y dy) =>
      match p.kind with
      | .chaos =>
        if p.userChaos then w
        else
          let (w1, p1) := aDefaultDist env w k p x
          match p1.dist with
          | none => w1
          | some d =>
            match w1.heap d with
            | some (.law l _) => w1.put d (.law l dx)
            | _ => w1
      | .kriging => (aDefaultDist env w k p x).1
      | .signal =>
        let (w1, _) := aDefaultDist env w k p x
        (w1.put p.input (.sample (x ++ env.addedIn x y) dx)).put p.signals (.sample (y ++ env.addedOut x y) dy)
      | .hitMiss =>
        let (w1, p1) := aDefaultDist env w k p x
        let ia := w1.next
        let x' := x ++ env.addedIn x y
        let w2 := w1.alloc (.sample x' (env.names x'))
        let ya := w2.next
        let y' := y ++ env.addedOut x y
        let w3 := w2.alloc (.sample y' (env.names y'))
        w3.setPod k { p1 with input := ia, signals := ya }
    | _, _ => w

/-- `getOutputDOE` (`_adaptive_signal_pod.py` 453-461, `_adaptive_hitmiss_pod.py` 613-621): with Box-Cox a new sample, otherwise the sample itself. -/
def aOutputDOE (env : AEnv R L) (w : AWorld R L) (p : APod) : AWorld R L × ℕ :=
  if p.boxCox then
    match w.rows p.signals with
    | some y => (w.alloc (.sample (env.inverse y) (env.names y)), w.next)
    | none => (w, p.signals)
  else (w, p.signals)

/-- One step.  Setters and getters: `setDistribution` (`_kriging_tools.py` 270-281, `_polynomial_chaos_pod.py` 494-505, `_adaptive_hitmiss_pod.py`
751-762) stores the object itself after the type check, `getDistribution` returns it, `getInputDOE` (`_adaptive_signal_pod.py` 463-467,
`_adaptive_hitmiss_pod.py` 623-627) returns the sample itself, `setPolynomialChaosResult` (`_polynomial_chaos_pod.py` 602-616) sets the flag. -/
def aStep (env : AEnv R L) (w : AWorld R L) : AOp R L → AWorld R L
  | .make o => { w.alloc o with made := w.next :: w.made, held := w.next :: w.held }
  | .write a o =>
    if a ∈ w.held then
      match w.heap a, o with
      | some (.sample _ _), .sample r d => w.put a (.sample r d)
      | some (.law _ _), .law l d => w.put a (.law l d)
      | _, _ => w
    else w
  | .construct kind i o censored boxCox binary => aConstruct env w kind i o censored boxCox binary
  | .setPolynomialChaosResult k =>
    match w.pods[k]? with
    | some p => if p.kind = .chaos then w.setPod k { p with userChaos := true } else w
    | none => w
  | .setDistribution k a =>
    match w.pods[k]?, w.heap a with
    | some p, some (.law _ _) => w.setPod k { p with dist := some a }
    | _, _ => w
  | .run k => aRun env w k
  | .getInputDOE k =>
    match w.pods[k]? with
    | some p => if p.kind = .signal ∨ p.kind = .hitMiss then { w with held := p.input :: w.held } else w
    | none => w
  | .getOutputDOE k =>
    match w.pods[k]? with
    | some p =>
      if p.kind = .signal ∨ p.kind = .hitMiss then
        let r := aOutputDOE env w p
        { r.1 with held := r.2 :: r.1.held }
      else w
    | none => w
  | .getDistribution k =>
    match w.pods[k]? with
    | some p => match p.dist with
      | some d => { w with held := d :: w.held }
      | none => w
    | none => w

/-- The start: nothing exists. -/
def aEmpty : AWorld R L := ⟨fun _ => none, 0, [], [], []⟩

/-- A history. -/
def aRunOps (env : AEnv R L) (w : AWorld R L) (ops : List (AOp R L)) : AWorld R L := ops.foldl (aStep env) w

end Verif.Model
