import Verif.Model.Metamodel
import Verif.Py.Float

/-!
# Sobol indices of the POD

Model of /repo/otpod/_sobol_indices.py, and of the constructor of `PLIBase` (/repo/otpod/_pli_pod.py 22-66), which
dispatches in the same way.  The sensitivity algorithms of OpenTURNS are external: the model keeps the output design that
they receive.
-/

namespace Verif.Model
open Verif.Py

/-! ## Constructors -/

/-- What the constructors read in the POD object.  `resultDim`: input dimension of the stored metamodel, `none` when
there is no result (the getters print a message and return `None`, _kriging_tools.py 182-185 and
_polynomial_chaos_pod.py 627-630; `AdaptiveSignalPOD.__init__` does not even create the attribute).
`hasTransformation`: whether the attribute `_transformation` exists.  `hasDistribution`: whether `getDistribution`
returns a distribution. -/
structure PodObj where
  className : String
  resultDim : Option ℕ
  hasTransformation : Bool
  hasDistribution : Bool
  sizes : List ℝ

/-- The object after a successful `run` with its own metamodel: `KrigingPOD.run` (_kriging_pod.py 178-195) stores
result, transformation and distribution; `PolynomialChaosPOD.run` (_polynomial_chaos_pod.py 163-172, 672-684) too;
`AdaptiveSignalPOD.run` (_adaptive_signal_pod.py 188-232, 387-396) keeps the transformation in a local variable. -/
def podAfterRun (className : String) (dim : ℕ) (sizes : List ℝ) : PodObj :=
  { className := className
    resultDim := some dim
    hasTransformation := className == "KrigingPOD" || className == "PolynomialChaosPOD"
    hasDistribution := true
    sizes := sizes }

/-- The end common to both constructors (_sobol_indices.py 75-97, _pli_pod.py 40-57): dimension check, then the
marginals of the distribution.  Returns `_dim`. -/
def sensInitTail (p : PodObj) (metaDim : ℕ) : Res ℕ :=
  if metaDim < 3 then .error ⟨.assertion, "The number of parameters must be greater or equal than 2"⟩
  else if p.hasDistribution = false then .error ⟨.attributeError, "'NoneType' object has no attribute 'getMarginal'"⟩
  else .ok (metaDim - 1)

/-- `SobolIndices.__init__`, lines 59-97. -/
def sobolInit (p : PodObj) : Res ℕ :=
  if p.className = "PolynomialChaosPOD" then
    match p.resultDim with
    | none => .error ⟨.attributeError, "'NoneType' object has no attribute 'getMetaModel'"⟩
    | some n => sensInitTail p n
  else if p.className = "KrigingPOD" ∨ p.className = "AdaptiveSignalPOD" then
    match p.resultDim with
    | none => .error ⟨.attributeError, "'NoneType' object has no attribute 'getMetaModel'"⟩
    | some n => sensInitTail p n
  else .error ⟨.exception, "Sobol indices can only be computed based on a POD built with Kriging or polynomial chaos."⟩

/-- `PLIBase.__init__`, _pli_pod.py 22-66 (up to the shape of `delta`, see `vstackDeltas`). -/
def pliBaseInit (p : PodObj) : Res ℕ :=
  if p.className = "PolynomialChaosPOD" then
    match p.resultDim with
    | none => .error ⟨.attributeError, "'NoneType' object has no attribute 'getMetaModel'"⟩
    | some n => sensInitTail p n
  else if p.className = "KrigingPOD" ∨ p.className = "AdaptiveSignalPOD" then
    match p.resultDim with
    | none => .error ⟨.attributeError, "'NoneType' object has no attribute 'getMetaModel'"⟩
    | some n =>
      if p.hasTransformation = false then .error ⟨.attributeError, "object has no attribute '_transformation'"⟩
      else sensInitTail p n
  else .error ⟨.exception, "Sobol indices can only be computed based on a POD built with Kriging or polynomial chaos."⟩

/-- `KrigingBase.drawValidationGraph`, _kriging_tools.py 149-160: the attributes it reads. -/
def krigingDrawValidation (p : PodObj) : Res Unit :=
  match p.resultDim with
  | none => .error ⟨.attributeError, ""⟩
  | some _ =>
    if p.hasTransformation = false then .error ⟨.attributeError, "object has no attribute '_transformation'"⟩
    else .ok ()

/-! ## `run`: removal of the constant outputs -/

/-- `sample.computeCovariance()[0, 0]` of one column: the unbiased variance. -/
noncomputable def colVariance (xs : List ℝ) : ℝ :=
  (xs.map fun x => (x - listMean xs) ^ 2).sum / (xs.length - 1)

/-- The attributes; `sa` holds the columns of the output design given to the last sensitivity algorithm. -/
structure SobolSt extends SizeAttrs where
  sa : Option (List (List ℝ)) := none

/-- `SobolIndices.run`, lines 99-169.  `design sizes` is the output design (by columns) of the aggregated POD function
built for these sizes; its number of columns is the number of sizes (lines 476, 550).  `observed`: the defects of the
POD. -/
noncomputable def sobolRun (observed : List ℝ) (N : ℕ) (design : List ℝ → List (List ℝ)) : Meth SobolSt Unit := fun s =>
  let cols := design s.sizes
  let selected := (List.range cols.length).filter fun j => colVariance ((cols.getD j []).take N) ≠ 0
  if selected.length ≠ cols.length then
    match setDefectSizes observed (selected.map fun j => s.sizes.getD j 0) s.toSizeAttrs with
    | (.error e, s1) => (.error e, { s with toSizeAttrs := s1 })
    | (.ok _, s1) => (.ok (), { s with toSizeAttrs := s1, sa := some (selected.map fun j => cols.getD j []) })
  else (.ok (), { s with sa := some cols })

/-- `SobolIndices.setDefectSizes`, lines 372-393. -/
noncomputable def sobolSetSizes (observed arg : List ℝ) : Meth SobolSt Unit := fun s =>
  let (r, s1) := setDefectSizes observed arg s.toSizeAttrs
  (r, { s with toSizeAttrs := s1 })

/-- Calls of the user. -/
inductive SobolOp
  | setSizes (arg : List ℝ)
  | run (N : ℕ) (design : List ℝ → List (List ℝ))

/-- One call; exceptions are caught by the user. -/
noncomputable def sobolStep (observed : List ℝ) (s : SobolSt) : SobolOp → Res Unit × SobolSt
  | .setSizes arg => sobolSetSizes observed arg s
  | .run N design => sobolRun observed N design s

/-- A history of calls. -/
noncomputable def sobolHistory (observed : List ℝ) (ops : List SobolOp) (s : SobolSt) : SobolSt :=
  ops.foldl (fun s op => (sobolStep observed s op).2) s

/-- The points plotted by `_drawIndices`, lines 300-314: sizes whose indices cannot be computed (no such output, or
`index` fails on the output) are skipped.  `index col` are the indices of the output column. -/
def sobolDrawn {I : Type} (index : List ℝ → Option I) (s : SobolSt) : Res (List (ℝ × I)) :=
  match s.sa with
  | none => .ok []
  | some cols =>
    .ok (s.sizes.zipIdx.filterMap fun di =>
      (cols[di.2]?).bind fun c => (index c).map fun v => (di.1, v))

/-! ## Aggregated POD function for kriging -/

/-- `np.sqrt`. -/
noncomputable def sqrtF (v : ℝ) : F ℝ := if v < 0 then .nan else .fin (Real.sqrt v)

/-- `ot.DistFunc.pNormal` on a float. -/
noncomputable def pNormalF : F ℝ → F ℝ
  | .nan => .nan
  | .ninf => .fin 0
  | .pinf => .fin 1
  | .fin x => .fin (Phi x)

/-- Lines 517-519: `mean` has shape `(D, 1)` (an OpenTURNS sample, see `.asPoint()` in _kriging_tools.py 485) and `var`
shape `(D,)`, so the quotient has shape `(D, D)`: row `i` is `(detection - mean i) / sqrt (var j)` over `j`; `vstack` keeps
it, and `q[0]` is the first entry of the row. -/
noncomputable def krigProb (detection : ℝ) (mean var : List ℝ) : List (F ℝ) :=
  let quantile := mean.map fun m => var.map fun v => F.div (.fin (detection - m)) (sqrtF v)
  quantile.map fun q => F.sub (.fin 1) (pNormalF (q.getD 0 .nan))

/-- `PODaggrKriging._exec`, lines 487-522.  `condMean`, `condVar`: conditional mean and variance of the kriging result at
a point. -/
noncomputable def krigExec (condMean condVar : List ℝ → ℝ) (detection : ℝ) (sizes x : List ℝ) : Res (List (F ℝ)) :=
  let xWitha := sizes.map fun d => d :: x
  let mean := xWitha.map condMean
  let var := xWitha.map condVar
  if ∀ v ∈ var, v < 0 then
    if ∀ v ∈ var, v < 0 → v < 1 / 100 then
      .error ⟨.valueError, "Variance values are lower than -1e-2. Please check the validity of the kriging model."⟩
    else .ok (krigProb detection mean (var.map fun v => |v|))
  else .ok (krigProb detection mean var)

/-! ## Aggregated POD function for chaos -/

/-- `PODaggrChaos._exec`, lines 572-585.  `chaos p`: the signals of the `simulationSize` simulated chaos functions at the
point; `podSizes`: `self.chaosPOD._defectSizes`; `defectNumber`: number of sizes of this object; `res`: the residuals drawn
by this call.  `np.concatenate` raises ValueError when the numbers of rows differ. -/
noncomputable def chaosExec (chaos : List ℝ → List ℝ) (detection : ℝ) (podSizes : List ℝ) (defectNumber : ℕ)
    (x res : List ℝ) : Res (List ℝ) :=
  if podSizes.length ≠ defectNumber then .error ⟨.valueError, "all the input array dimensions except for the concatenation axis must match exactly"⟩
  else .ok ((podSizes.map fun d => d :: x).map fun p => fracAbove detection (List.zipWith (· + ·) (chaos p) res))

/-- The loop of lines 592-596 filling `fullX`, from zero rows. -/
noncomputable def chaosFullX (dim : ℕ) (sizes : List ℝ) (X : List (List ℝ)) : List (List ℝ) :=
  X.zipIdx.foldl (fun full xi => assignRows full (sizes.length * xi.2) (sizes.map fun d => d :: xi.1))
    (List.replicate (X.length * sizes.length) (List.replicate (dim + 1) 0))

/-- The loop of lines 603-607 for one of the `simulationSize` rows of `fullRes`; `r` is the same row of
`residualsSample`. -/
noncomputable def chaosFullResRow (D n : ℕ) (r : List ℝ) : List ℝ :=
  (List.range n).foldl (fun full i => assignRows full (D * i) (List.replicate D (r.getD i 0))) (List.replicate (n * D) 0)

/-- `PODaggrChaos._exec_sample`, lines 588-617.  `res`: the rows of `residualsSample` (`simulationSize` rows, one column
per point).  `np.transpose` then addition to `Y`: entry `(row, k)` of the sum is the `k`-th signal at the row plus entry
`(k, row)` of `fullRes`.  The last step is `reshape(samplingSize, defectNumber)` in C order. -/
noncomputable def chaosExecSample (chaos : List ℝ → List ℝ) (detection : ℝ) (dim : ℕ) (sizes : List ℝ)
    (X res : List (List ℝ)) : List (List ℝ) :=
  let fullX := chaosFullX dim sizes X
  let fullRes := res.map fun r => chaosFullResRow sizes.length X.length r
  let prob := fullX.mapIdx fun row p =>
    fracAbove detection (List.zipWith (· + ·) (chaos p) (fullRes.map fun fr => fr.getD row 0))
  (List.range X.length).map fun i => (List.range sizes.length).map fun j => prob.getD (i * sizes.length + j) 0

end Verif.Model
