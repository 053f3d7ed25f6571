import Verif.Py.Basic
import Verif.Py.Float
import Mathlib.Data.Real.Basic
import Mathlib.Data.List.Sort

/-!
# The enrichment loop of `AdaptiveHitMissPOD.run`

Model of /repo/otpod/_adaptive_hitmiss_pod.py 177-409 and 543-611.  `X` points.  A classifier is represented by the column
`predict_proba(x)[:, 1]`, row by row: a function `X → F ℝ` (NaN is possible for the aggregated one).  Fitting, the physical
model and `np.argsort` are parameters.  Labels are booleans; both classes occur in the design (otherwise scikit-learn
returns one column and line 265 fails), so confusion matrices are 2×2.
-/

namespace Verif.Model
open Verif.Py

/-! ## Selection of a batch -/

/-- `np.where(cond)[0]`: positions where the condition holds, ascending. -/
noncomputable def npWhere (cond : F ℝ → Bool) (probs : List (F ℝ)) : List ℕ :=
  (List.range probs.length).filter fun i => cond (probs.getD i .nan)

/-- Lines 268-270: `np.intersect1d(np.where(probs >= lo)[0], np.where(probs < hi)[0])` (sorted common values of two
ascending lists). -/
noncomputable def window (lo hi : F ℝ) (probs : List (F ℝ)) : List ℕ :=
  (npWhere (fun p => F.ge p lo) probs).filter fun i => decide (i ∈ npWhere (fun p => F.lt p hi) probs)

/-- Lines 268-281: the window, and when it is empty the "enlarged" one (at least 0.8 and below 0.1). -/
noncomputable def eligible (pmin pmax : F ℝ) (probs : List (F ℝ)) : List ℕ :=
  let ind := window pmin pmax probs
  if ind.length = 0 then window (.fin (8 / 10)) (.fin (1 / 10)) probs else ind

/-- Lines 284-290: ranks of the minimum, the quartiles and the maximum (`int(n/4.0)` is exact). -/
def quant (n : ℕ) : List ℤ := [0, (n / 4 : ℕ), (n / 2 : ℕ), (3 * n / 4 : ℕ), (n : ℤ) - 1]

/-- `l[i]` on a numpy array: negative indices count from the end, IndexError out of range. -/
def npGet (l : List ℕ) (i : ℤ) : Res ℕ :=
  match l[(if 0 ≤ i then i.toNat else (i + l.length).toNat)]? with
  | some x => if -(l.length : ℤ) ≤ i then .ok x else .error ⟨.indexError, ""⟩
  | none => .error ⟨.indexError, ""⟩

/-- Fancy indexing `l[[i1, i2, …]]`. -/
def npTake (l : List ℕ) : List ℤ → Res (List ℕ)
  | [] => .ok []
  | i :: is =>
    match npGet l i with
    | .error e => .error e
    | .ok x =>
      match npTake l is with
      | .error e => .error e
      | .ok xs => .ok (x :: xs)

/-- Lines 268-293: ranks, in the candidate design, of the batch. -/
noncomputable def selectBatch (argsort : List (F ℝ) → List ℕ) (pmin pmax : F ℝ) (probs : List (F ℝ)) : Res (List ℕ) :=
  let ind := eligible pmin pmax probs
  match npTake (argsort (ind.map fun i => probs.getD i .nan)) (quant ind.length) with
  | .error e => .error e
  | .ok indBis => .ok (indBis.map fun r => ind.getD r 0)

/-! ## Aggregated classifier and confusion matrix -/

/-- `np.max([a, 0])` and `np.min([a, 1])` propagate NaN. -/
noncomputable def clip01 : F ℝ → F ℝ
  | .nan => .nan
  | .ninf => .fin 0
  | .pinf => .fin 1
  | .fin x => .fin (min (max x 0) 1)

/-- Lines 355-370: second column of `agg_classifier`. -/
noncomputable def aggregate (p11 p10 p : F ℝ) : F ℝ :=
  clip01 (F.mul (F.div (.fin 1) (F.sub p11 p10)) (F.sub p p10))

/-- Line 371: the row returned by `agg_classifier`. -/
noncomputable def aggRow (p11 p10 p : F ℝ) : F ℝ × F ℝ :=
  (F.sub (.fin 1) (aggregate p11 p10 p), aggregate p11 p10 p)

/-- A 2×2 matrix indexed by true label and predicted label. -/
abbrev Mat2 := Bool → Bool → F ℝ

/-- `sklearn.metrics.confusion_matrix(labels, preds)[i, j]`. -/
def confCount (labels preds : List Bool) (i j : Bool) : ℕ := (labels.zip preds).countP fun p => p.1 == i && p.2 == j

/-- Line 345: every column divided by its sum (0/0 is NaN). -/
noncomputable def colNorm (c : Bool → Bool → ℕ) : Mat2 := fun i j =>
  F.div (.fin (c i j)) (.fin ((c false j : ℝ) + c true j))

/-- Lines 342-345 for one classifier with probabilities `probs` on the design. -/
noncomputable def classifierConf (labels : List Bool) (probs : List (F ℝ)) : Mat2 :=
  colNorm (confCount labels (probs.map fun p => F.ge p (.fin (1 / 2))))

/-- Lines 340-348: average over the classifiers. -/
noncomputable def meanConf (labels : List Bool) (probs : List (List (F ℝ))) : Mat2 := fun i j =>
  F.div (probs.foldl (fun acc p => F.add (classifierConf labels p i j) acc) (.fin 0)) (.fin (probs.length : ℝ))

/-- Entries of `list_classifiers`: `predict_proba` of the initial classifier (a bound method), or the closure
`agg_classifier`, which holds no values of its own. -/
inductive Clf (X : Type)
  | base (g : X → F ℝ)
  | agg

/-- The variables `p11`, `p10`, `classif_algo_temp` of the frame of `run`, shared by all the closures. -/
structure AggVars (X : Type) where
  p11 : F ℝ
  p10 : F ℝ
  alg : X → F ℝ

/-- Calling a classifier: the closure reads the *current* values of the variables (late binding).  `none`: not yet
assigned; no closure exists then. -/
noncomputable def Clf.eval {X : Type} (v : Option (AggVars X)) : Clf X → X → F ℝ
  | .base g, x => g x
  | .agg, x => match v with
    | none => .nan
    | some a => aggregate a.p11 a.p10 (a.alg x)

/-! ## The loop -/

/-- External functions: physical model, fit of the classifier at a given iteration, `np.argsort`. -/
structure HMEnv (X : Type) where
  physical : X → Res Bool
  fit : ℕ → List X → List Bool → Res (X → F ℝ)
  argsort : List (F ℝ) → List ℕ

/-- Attributes.  `numpy`: `self._input` is a numpy array instead of a Sample. -/
structure HMAttrs (X : Type) where
  input : List X
  labels : List Bool
  numpy : Bool
  confMat : Option Mat2
  model : Option (Clf X × Option (AggVars X))
  pmin : F ℝ
  pmax : F ℝ

/-- Local variables of the loop; `cur` is `f_iter`. -/
structure HMLocals (X : Type) where
  clfs : List (Clf X)
  cur : Clf X
  vars : Option (AggVars X)
  it : ℕ
  nAdded : ℕ

/-- `[physical(x) for x in xs]` -/
def labelAll {X : Type} (physical : X → Res Bool) : List X → Res (List Bool)
  | [] => .ok []
  | x :: xs =>
    match physical x with
    | .error e => .error e
    | .ok b =>
      match labelAll physical xs with
      | .error e => .error e
      | .ok bs => .ok (b :: bs)

/-- One iteration (lines 262-375): selection, labels, truncation of the last batch, fit, confusion matrix *before* the
variables of the closures are assigned. -/
noncomputable def hmIter {X : Type} (env : HMEnv X) (cand : List X) (nIni nMore : ℕ) (loc : HMLocals X) :
    Meth (HMAttrs X) (HMLocals X) := fun s =>
  match selectBatch env.argsort s.pmin s.pmax (cand.map (loc.cur.eval loc.vars)) with
  | .error e => (.error e, s)
  | .ok batch =>
    let xNew := batch.filterMap fun i => cand[i]?
    match labelAll env.physical xNew with
    | .error e => (.error e, s)
    | .ok zNew =>
      let nNewTemp := s.input.length + xNew.length
      let keep := if nNewTemp > nIni + nMore then nMore + nIni - s.input.length else xNew.length
      let s1 := { s with input := s.input ++ xNew.take keep, labels := s.labels ++ zNew.take keep }
      match env.fit (loc.it + 1) s1.input s1.labels with
      | .error e => (.error e, s1)
      | .ok alg =>
        let conf := meanConf s1.labels (loc.clfs.map fun c => s1.input.map (c.eval loc.vars))
        let vars := some ⟨conf true true, conf true false, alg⟩
        (.ok ⟨loc.clfs ++ [.agg], .agg, vars, loc.it + 1, nNewTemp - nIni⟩,
          { s1 with confMat := some conf, model := some (.agg, vars) })

/-- The `while` loop (line 260).  `fuel` bounds the number of iterations; C50 shows that `nMore` is always enough. -/
noncomputable def hmLoop {X : Type} (env : HMEnv X) (cand : List X) (nIni nMore : ℕ) :
    ℕ → HMLocals X → Meth (HMAttrs X) (HMLocals X)
  | 0, loc => fun s => if loc.nAdded < nMore then (.error ⟨.runtime, "out of fuel"⟩, s) else (.ok loc, s)
  | fuel + 1, loc => fun s =>
    if loc.nAdded < nMore then
      match hmIter env cand nIni nMore loc s with
      | (.error e, s') => (.error e, s')
      | (.ok loc', s') => hmLoop env cand nIni nMore fuel loc' s'
    else (.ok loc, s)

/-- `run` up to the final POD (lines 216-400).  `self._input.getSize()` does not exist on a numpy array. -/
noncomputable def hmRun {X : Type} (env : HMEnv X) (cand : List X) (nMore : ℕ) : Meth (HMAttrs X) Unit := fun s =>
  if s.numpy then (.error ⟨.attributeError, "'numpy.ndarray' object has no attribute 'getSize'"⟩, s)
  else
    let s1 := { s with numpy := true }
    match env.fit 0 s1.input s1.labels with
    | .error e => (.error e, s1)
    | .ok g =>
      match hmLoop env cand s.input.length nMore nMore ⟨[.base g], .base g, none, 0, 0⟩
          { s1 with model := some (.base g, none) } with
      | (.error e, s2) => (.error e, s2)
      | (.ok _, s2) => (.ok (), { s2 with numpy := false })

/-! ## Setters -/

/-- Options of the object; parameters are abstract values of type `P`. -/
structure HMOptions (P : Type) where
  pmin : F ℝ
  pmax : F ℝ
  kind : String
  params : P

/-- `setPMin` (558-565). -/
noncomputable def setPMin {P : Type} (p : F ℝ) : Meth (HMOptions P) Unit := fun s =>
  if F.lt p (.fin 0) || F.gt p (.fin 1) then (.error ⟨.valueError, "pmin must range between 0 and 1."⟩, s)
  else (.ok (), { s with pmin := p })

/-- `setPMax` (573-580). -/
noncomputable def setPMax {P : Type} (p : F ℝ) : Meth (HMOptions P) Unit := fun s =>
  if F.lt p (.fin 0) || F.gt p (.fin 1) then (.error ⟨.valueError, "pmax must range between 0 and 1."⟩, s)
  else (.ok (), { s with pmax := p })

/-- `setClassifierType` (588-599); `defaults` are the literal parameter lists. -/
def setClassifierType {P : Type} (defaults : String → P) (k : String) : Meth (HMOptions P) Unit := fun s =>
  if k ≠ "rf" ∧ k ≠ "svc" then (.error ⟨.valueError, "Classifier must be 'rf or 'svc'."⟩, s)
  else
    let s1 := { s with kind := k }
    let s2 := if k = "svc" then { s1 with params := defaults "svc" } else s1
    let s3 := if k = "rf" then { s2 with params := defaults "rf" } else s2
    (.ok (), s3)

/-- `setClassifierParameters` (607-611): no check. -/
def setClassifierParameters {P : Type} (p : P) : Meth (HMOptions P) Unit := fun s => (.ok (), { s with params := p })

/-- One setter call. -/
inductive HMSetter (P : Type)
  | pmin (p : F ℝ)
  | pmax (p : F ℝ)
  | kind (k : String)
  | params (p : P)

/-- Run one setter. -/
noncomputable def hmSet {P : Type} (defaults : String → P) : HMSetter P → Meth (HMOptions P) Unit
  | .pmin p => setPMin p
  | .pmax p => setPMax p
  | .kind k => setClassifierType defaults k
  | .params p => setClassifierParameters p

end Verif.Model
