import Verif.Py.Basic
import Verif.Py.Float
import Mathlib.Data.Real.Sqrt
import Mathlib.LinearAlgebra.Matrix.Notation
import Mathlib.Probability.Distributions.Gaussian.Real
import Mathlib.MeasureTheory.Integral.IntervalIntegral.Basic

/-!
# Perturbation law indices: `PLI`, `PLIMeanBase`, `PLIVarianceBase`

Model of /repo/otpod/_pli.py.  Numbers are real; divisions that can hit zero in the index are done in `F ℝ`.  The
distribution has `d` marginals with an independent copula (checked by the constructor), so `computePDF` of the joint
distribution is the product of the marginal densities.  `fsolve` is a parameter; Gauss-Kronrod quadrature is the exact
integral over the range of the marginal.
-/

namespace Verif.Model
open Verif.Py MeasureTheory ProbabilityTheory

/-! ## Constructor: shape and scaling of the deltas -/

/-- The argument `deltas`: what `np.array` makes of it (0, 1 or 2 dimensions). -/
inductive DeltaArg
  | scalar (x : ℝ)
  | vec (xs : List ℝ)
  | mat (rows : List (List ℝ))

/-- `np.vstack(np.array(deltas))`, line 75: a vector becomes one column, a matrix is unchanged.  A scalar cannot be
iterated (TypeError); an empty or ragged argument is rejected by numpy (ValueError). -/
noncomputable def vstackDeltas : DeltaArg → Res (List (List ℝ))
  | .scalar _ => .error ⟨.typeError, "iteration over a 0-d array"⟩
  | .vec [] => .error ⟨.valueError, "need at least one array to concatenate"⟩
  | .vec (x :: xs) => .ok ((x :: xs).map fun y => [y])
  | .mat [] => .error ⟨.valueError, "need at least one array to concatenate"⟩
  | .mat (r :: rs) =>
    if (rs.all fun r' => r'.length == r.length) = true then .ok (r :: rs)
    else .error ⟨.valueError, "inhomogeneous shape"⟩

/-- `PLI.__init__`, lines 52-91: history check, copula check, shape check, broadcast of a single column
(`np.ones((n, dim)) * deltas`).  Returns `_deltaValues`. -/
noncomputable def pliInit (histSize dim : ℕ) (indep : Bool) (deltas : DeltaArg) : Res (List (List ℝ)) :=
  if histSize = 0 then .error ⟨.attributeError, "should be a MemoizeFunction"⟩
  else if indep = false then .error ⟨.exception, "must have an independent copula"⟩
  else
    match vstackDeltas deltas with
    | .error e => .error e
    | .ok rows =>
      let ncol := (rows.headD []).length
      if ncol ≠ 1 ∧ ncol ≠ dim then .error ⟨.attributeError, "deltas must be 1d or 2d"⟩
      else if ncol = 1 then .ok (rows.map fun r => List.replicate dim (r.headD 0))
      else .ok rows

/-- `PLIMeanBase.__init__`, lines 627-634.  `mean`, `std`: moments of the marginals. -/
noncomputable def pliMeanInit (histSize : ℕ) (indep : Bool) (mean std : List ℝ) (deltas : DeltaArg) (sigmaScaled : Bool) :
    Res (List (List ℝ)) :=
  match pliInit histSize mean.length indep deltas with
  | .error e => .error e
  | .ok dv =>
    if sigmaScaled = true then
      .ok (dv.map fun r => List.zipWith (· + ·) (List.zipWith (· * ·) r std) mean)
    else .ok dv

/-- `PLIVarianceBase.__init__`, lines 733-744. -/
noncomputable def pliVarianceInit (histSize : ℕ) (indep : Bool) (mean std : List ℝ) (deltas : DeltaArg) (covScaled : Bool) :
    Res (List (List ℝ)) :=
  match pliInit histSize mean.length indep deltas with
  | .error e => .error e
  | .ok dv =>
    if (dv.all fun r => r.all fun x => decide (0 < x)) = false ∧ covScaled = false then
      .error ⟨.attributeError, "The delta values must be positive."⟩
    else if covScaled = true then
      .ok (dv.map fun r => (List.zipWith (· + ·) (List.zipWith (· * ·) r mean) std).map (· ^ 2))
    else .ok dv

/-! ## Failure sample -/

/-- Class name of the comparison operator of the event. -/
inductive CmpOp
  | less | lessOrEqual | greater | greaterOrEqual | other

/-- `_getFailureSample`, lines 138-164; the history as (input row, output) pairs. -/
noncomputable def failureSample {X : Type} (op : CmpOp) (thr : ℝ) (hist : List (X × ℝ)) : Res (List X) :=
  match op with
  | .less | .lessOrEqual => .ok ((hist.filter fun p => decide (p.2 < thr)).map Prod.fst)
  | .greater | .greaterOrEqual => .ok ((hist.filter fun p => decide (p.2 > thr)).map Prod.fst)
  | .other => .error ⟨.nameError, "comparison operator is not known"⟩

/-! ## Estimates -/

/-- `_computePerturbedPDF`, lines 515-536: product of the marginal densities with one of them replaced. -/
noncomputable def perturbedPDF {d : ℕ} (pdf : Fin d → ℝ → ℝ) (marginal : Fin d) (pert : ℝ → ℝ) (x : Fin d → ℝ) : ℝ :=
  ∏ i, (Function.update pdf marginal pert) i (x i)

/-- The joint density of independent marginals (`self._distribution.computePDF`). -/
noncomputable def jointPDF {d : ℕ} (pdf : Fin d → ℝ → ℝ) (x : Fin d → ℝ) : ℝ := ∏ i, pdf i (x i)

/-- The ratios `_computePerturbedPDF / computePDF` over the failure sample, lines 181-185. -/
noncomputable def pliWeights {d : ℕ} (pdf : Fin d → ℝ → ℝ) (marginal : Fin d) (pert : ℝ → ℝ) (fs : List (Fin d → ℝ)) : List ℝ :=
  fs.map fun x => perturbedPDF pdf marginal pert x / jointPDF pdf x

/-- `_computePfdelta`, lines 166-186. -/
noncomputable def pfDelta (N : ℕ) (ws : List ℝ) : ℝ := 1 / (N : ℝ) * ws.sum

/-- `_computeVariancePfdelta`, lines 188-214. -/
noncomputable def varPfDelta (N : ℕ) (ws : List ℝ) : ℝ := 1 / (N : ℝ) * (ws.map (· ^ 2)).sum - pfDelta N ws ^ 2

/-- `_computePLIndices`, lines 216-232. -/
noncomputable def pliIndex (pf pfd : ℝ) : F ℝ :=
  if pfd < pf then F.div (.fin (pfd - pf)) (.fin pfd) else F.div (.fin (pfd - pf)) (.fin pf)

/-- Covariance matrix, lines 251-262. -/
noncomputable def pliCov (pf pfd v : ℝ) : Matrix (Fin 2) (Fin 2) ℝ :=
  !![pf * (1 - pf), pfd * (1 - pf); pfd * (1 - pf), v]

/-- Gradient, lines 263-273. -/
noncomputable def pliGrad (pf pfd : ℝ) : Fin 2 → ℝ :=
  if pfd < pf then ![-1 / pfd, pf / pfd ^ 2] else ![-pfd / pf ^ 2, 1 / pf]

/-- `np.dot(d.transpose(), np.dot(covMat, d))`, line 275. -/
noncomputable def pliVar (pf pfd v : ℝ) : ℝ :=
  dotProduct (pliGrad pf pfd) (Matrix.mulVec (pliCov pf pfd v) (pliGrad pf pfd))

/-- Lines 276-281: standard deviation given to `ot.Normal`; `none` is numpy's NaN (square root of a negative number). -/
noncomputable def pliSigma (N : ℕ) (var : ℝ) : Option ℝ :=
  if (|var| < 1 / 10 ^ 6 ∧ var < 0) ∨ var = 0 then some (1 / 10 ^ 30)
  else if var / N < 0 then none
  else some (Real.sqrt (var / N))

/-- Body of the loop of `PLI.run`, lines 119-136, for one marginal and one delta: perturbed probability, variance,
index, standard deviation. -/
noncomputable def pliEntry {d : ℕ} (op : CmpOp) (thr : ℝ) (hist : List ((Fin d → ℝ) × ℝ)) (N : ℕ) (pf : ℝ)
    (pdf : Fin d → ℝ → ℝ) (marginal : Fin d) (pert : ℝ → ℝ) : Res (ℝ × ℝ × F ℝ × Option ℝ) :=
  match failureSample op thr hist with
  | .error e => .error e
  | .ok fs =>
    let ws := pliWeights pdf marginal pert fs
    .ok (pfDelta N ws, varPfDelta N ws, pliIndex pf (pfDelta N ws),
      pliSigma N (pliVar pf (pfDelta N ws) (varPfDelta N ws)))

/-! ## Perturbed marginals -/

/-- A marginal distribution: the class names the code distinguishes. -/
inductive Marg
  | normal (μ σ : ℝ)
  | uniform (a b : ℝ)
  | other (pdf : ℝ → ℝ) (mean var : ℝ)

/-- `computePDF` (OpenTURNS excludes one end of the interval for the uniform law; a null set). -/
noncomputable def Marg.pdf : Marg → ℝ → ℝ
  | .normal μ σ => fun x => 1 / (σ * Real.sqrt (2 * Real.pi)) * Real.exp (-0.5 * ((x - μ) / σ) ^ 2)
  | .uniform a b => fun x => if a ≤ x ∧ x ≤ b then 1 / (b - a) else 0
  | .other p _ _ => p

/-- `getMean()[0]`. -/
noncomputable def Marg.mean : Marg → ℝ
  | .normal μ _ => μ
  | .uniform a b => (a + b) / 2
  | .other _ m _ => m

/-- `getCovariance()[0, 0]`. -/
noncomputable def Marg.var : Marg → ℝ
  | .normal _ σ => σ ^ 2
  | .uniform a b => (b - a) ^ 2 / 12
  | .other _ _ v => v

/-- `MprimeOverM`, lines 667-675. -/
noncomputable def mPrimeOverM (lam a b δ : ℝ) : ℝ :=
  if lam = 0 then (a + b) / 2 - δ
  else (Real.exp (lam * b) * (lam * b - 1) + Real.exp (lam * a) * (1 - lam * a))
    / (lam * (Real.exp (lam * b) - Real.exp (lam * a))) - δ

/-- `PLIMeanBase._perturbedMarginalPDF`, lines 636-696.  `solve a b δ` is the point returned by `fsolve`. -/
noncomputable def meanPert (solve : ℝ → ℝ → ℝ → ℝ) (m : Marg) (δ : ℝ) : Res (ℝ → ℝ) :=
  if δ = m.mean then .ok m.pdf
  else
    match m with
    | .normal _ σ => .ok fun x => 1 / (σ * Real.sqrt (2 * Real.pi)) * Real.exp (-0.5 * ((x - δ) / σ) ^ 2)
    | .uniform a b =>
      let lam := solve a b δ
      .ok fun x => lam / (Real.exp (lam * b) - Real.exp (lam * a)) * Real.exp (lam * x)
        * (if x ≤ b ∧ x ≥ a then 1 else 0)
    | .other _ _ _ => .error ⟨.notImplemented, "Only Normal and Uniform distribution can be used."⟩

/-- `pdfExp`, lines 805-825. -/
noncomputable def pdfExp (p : ℝ → ℝ) (lam : ℝ × ℝ) (degree : ℕ) (x : ℝ) : ℝ :=
  x ^ degree * p x * Real.exp (lam.1 * x + lam.2 * x ^ 2)

/-- `computeIntegral`, lines 827-836, over the range `[a, b]`; exact quadrature. -/
noncomputable def tiltIntegral (p : ℝ → ℝ) (a b : ℝ) (lam : ℝ × ℝ) (degree : ℕ) : ℝ :=
  ∫ x in a..b, pdfExp p lam degree x

/-- `H`, lines 838-855. -/
noncomputable def dualH (p : ℝ → ℝ) (a b : ℝ) (rhs lam : ℝ × ℝ) : ℝ :=
  Real.log (tiltIntegral p a b lam 0) - (lam.1 * rhs.1 + lam.2 * rhs.2)

/-- `gradH`, lines 857-868. -/
noncomputable def gradH (p : ℝ → ℝ) (a b : ℝ) (rhs lam : ℝ × ℝ) : Res (ℝ × ℝ) :=
  let e := tiltIntegral p a b lam 0
  if e = 0 then .error ⟨.zeroDivision, "Exponential Psi = 0"⟩
  else .ok (tiltIntegral p a b lam 1 / e - rhs.1, tiltIntegral p a b lam 2 / e - rhs.2)

/-- `hessianH`, lines 870-882. -/
noncomputable def hessianH (p : ℝ → ℝ) (a b : ℝ) (lam : ℝ × ℝ) : Matrix (Fin 2) (Fin 2) ℝ :=
  let e := tiltIntegral p a b lam 0
  let r1 := tiltIntegral p a b lam 1
  let r2 := tiltIntegral p a b lam 2
  let r3 := tiltIntegral p a b lam 3
  let r4 := tiltIntegral p a b lam 4
  !![r2 / e - r1 ^ 2 / e ^ 2, r3 / e - r1 * r2 / e ^ 2; r3 / e - r1 * r2 / e ^ 2, r4 / e - r2 ^ 2 / e ^ 2]

/-- `PLIVarianceBase._perturbedMarginalPDF`, lines 746-792.  `optimize p a b rhs` is the point returned by
`optimizeLambda` (lines 884-919). -/
noncomputable def varPert (optimize : (ℝ → ℝ) → ℝ → ℝ → ℝ × ℝ → ℝ × ℝ) (m : Marg) (δ : ℝ) : Res (ℝ → ℝ) :=
  if δ = m.var then .ok m.pdf
  else
    match m with
    | .normal μ _ => .ok fun x =>
        1 / (Real.sqrt δ * Real.sqrt (2 * Real.pi)) * Real.exp (-0.5 * ((x - μ) / Real.sqrt δ) ^ 2)
    | .uniform a b =>
      let mean := (Marg.uniform a b).mean
      let rhs := (mean, δ + mean ^ 2)
      let lam := optimize (Marg.uniform a b).pdf a b rhs
      let psi := Real.log (tiltIntegral (Marg.uniform a b).pdf a b lam 0)
      .ok fun x => Real.exp (lam.1 * x + lam.2 * x ^ 2 - psi) * (Marg.uniform a b).pdf x
    | .other _ _ _ => .error ⟨.notImplemented, "Only Normal and Uniform distribution can be used."⟩

/-- `_computeHellinger`, lines 572-601, over the range `s` of the marginal. -/
noncomputable def hellinger (s : Set ℝ) (p q : ℝ → ℝ) : ℝ := 2 - 2 * ∫ x in s, Real.sqrt (p x * q x)

/-- Abscissa used by `drawIndices` with `hellinger=True`, lines 384-393: the sign is changed below the original value. -/
noncomputable def hellingerAbscissa (s : Set ℝ) (p q : ℝ → ℝ) (δ original : ℝ) : ℝ :=
  if δ < original then -hellinger s p q else hellinger s p q

end Verif.Model
