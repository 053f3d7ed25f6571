import Verif.Model.HitMiss

/-!
# The classifiers built by `AdaptiveHitMissPOD.run`

/repo/otpod/_adaptive_hitmiss_pod.py 112-114, 222-257 and 308-337.  Training itself is a parameter.
-/

namespace Verif.Model
open Verif.Py

/-- Values that occur in the parameter lists. -/
inductive PyParam
  | num (x : ℝ)
  | str (s : String)
  | bool (b : Bool)
  | pyNone

/-- An untrained scikit-learn classifier: `SVC(C, kernel, degree, probability)` or `ExtraTreesClassifier(n_estimators, max_depth, min_samples_split,
random_state)`; the other arguments are constants of the code (229-231). -/
structure Estimator (V : Type) where
  kind : String
  args : V × V × V × V

/-- The parameter lists of lines 114, 597 and 599. -/
def classifierDefaults (k : String) : List (List PyParam) :=
  if k = "svc" then [[.num 1], [.str "poly"], [.num 3], [.bool true]] else [[.num 100], [.pyNone], [.num 2], [.num 0]]

/-- `list(map(f, *lists))[0]` for a function `f` of four arguments (224-237, 241-251): `map` needs one list at least, stops at the end of the shortest
list, and calls `f` with one value of each list. -/
def firstOfMap {V : Type} : List (List V) → Res (V × V × V × V)
  | [] => .error ⟨.typeError, "map() must have at least two arguments."⟩
  | [a :: _, b :: _, c :: _, d :: _] => .ok (a, b, c, d)
  | lists =>
    if (lists.any fun l => l.isEmpty) = true then .error ⟨.indexError, "list index out of range"⟩
    else .error ⟨.typeError, "<lambda>() takes 4 positional arguments"⟩

/-- Lines 222-251 (the same text in 308-337): without a known type the variable `algo_temp` has no value. -/
def buildEstimator {V : Type} (o : HMOptions (List (List V))) : Res (Estimator V) :=
  if o.kind = "svc" ∨ o.kind = "rf" then
    match firstOfMap o.params with
    | .error e => .error e
    | .ok a => .ok ⟨o.kind, a⟩
  else .error ⟨.unboundLocal, "algo_temp"⟩

/-- External functions: physical model, training of a classifier on data with two classes, `np.argsort`. -/
structure SkEnv (V X : Type) where
  physical : X → Res Bool
  train : Estimator V → ℕ → List X → List Bool → Res (X → F ℝ)
  argsort : List (F ℝ) → List ℕ

/-- Lines 222-253 and 308-337: the classifier is built anew at each iteration and trained. -/
def classifierFit {V X : Type} (sk : SkEnv V X) (o : HMOptions (List (List V))) (it : ℕ) (xs : List X) (ys : List Bool) : Res (X → F ℝ) :=
  match buildEstimator o with
  | .error e => .error e
  | .ok est => sk.train est it xs ys

/-- All labels are equal. -/
def oneClass (labels : List Bool) : Bool := labels.all (fun b => b) || labels.all (fun b => !b)

/-- `run` up to the final POD, with the options in force (216-401), also for data with one class: then `SVC.fit` raises ValueError, while
`ExtraTreesClassifier` is trained and gives one column of probabilities, so that `[:, 1]` raises IndexError: in the loop (265), or without added points in
`_computePOD` (842) after line 400. -/
noncomputable def hmFullRun {V X : Type} (sk : SkEnv V X) (o : HMOptions (List (List V))) (cand : List X) (nMore : ℕ) : Meth (HMAttrs X) Unit := fun s0 =>
  let s := { s0 with pmin := o.pmin, pmax := o.pmax }
  if oneClass s.labels = true then
    if s.numpy then (.error ⟨.attributeError, "'numpy.ndarray' object has no attribute 'getSize'"⟩, s)
    else
      let s1 := { s with numpy := true }
      match buildEstimator o with
      | .error e => (.error e, s1)
      | .ok est =>
        if est.kind = "svc" then (.error ⟨.valueError, "The number of classes has to be greater than one; got 1 class"⟩, s1)
        else
          match sk.train est 0 s.input s.labels with
          | .error e => (.error e, s1)
          | .ok g =>
            if 0 < nMore then (.error ⟨.indexError, "index 1 is out of bounds for axis 1 with size 1"⟩, { s1 with model := some (.base g, none) })
            else (.error ⟨.indexError, "index 1 is out of bounds for axis 1 with size 1"⟩, { s with model := some (.base g, none) })
  else hmRun ⟨sk.physical, classifierFit sk o, sk.argsort⟩ cand nMore s

end Verif.Model
