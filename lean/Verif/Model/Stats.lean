import Verif.Py.Basic
import Verif.Py.Gauss
import Mathlib.Data.Matrix.Mul
import Mathlib.LinearAlgebra.Matrix.Trace
import Mathlib.LinearAlgebra.Matrix.NonsingularInverse
import Mathlib.Algebra.Order.Floor.Defs
import Mathlib.Algebra.BigOperators.Fin

/-!
# Regression and residual statistics — /repo/otpod/_math_tools.py, lines 114-227

A one-column sample of size `n` is a vector `Fin n → K`.
-/

namespace Verif.Model
open Verif.Py

section Generic
variable {K : Type*} [Field K] {n : ℕ}

/-- `sample.computeMean()[0]`. -/
def smean (x : Fin n → K) : K := (∑ i, x i) / n

/-- `sample.computeVariance()[0]`: OpenTURNS' unbiased variance (divisor `n-1`). -/
def svar (x : Fin n → K) : K := (∑ i, (x i - smean x) ^ 2) / ((n : K) - 1)

/-- Slope of `statsmodels.OLS(signals, [1, defects]).fit()` (used at _univariate_linear_model_pod.py 589-592 and
_univariate_linear_model_analysis.py 243-247), in closed form.  statsmodels itself is not modelled; for
non-constant defects the least-squares solution is unique (proved in `Props/Stats`), which pins this formula.
Constant defects (rank deficient, pseudo-inverse) are outside the model. -/
def olsSlope (x y : Fin n → K) : K :=
  (∑ i, (x i - smean x) * (y i - smean y)) / ∑ i, (x i - smean x) ^ 2

/-- Intercept of the same fit. -/
def olsIntercept (x y : Fin n → K) : K := smean y - olsSlope x y * smean x

/-- `algoLinear.resid`. -/
def olsResiduals (x y : Fin n → K) : Fin n → K :=
  fun i => y i - (olsIntercept x y + olsSlope x y * x i)

/-- `computeR2(signals, residuals)` (_math_tools.py 114-120).  The two variances are Python floats, so a
zero denominator raises ZeroDivisionError. -/
def computeR2 [DecidableEq K] (signals residuals : Fin n → K) : Res K :=
  let v := svar fun i => signals i - smean signals
  if v = 0 then .error ⟨.zeroDivision, ""⟩ else .ok (1 - svar residuals / v)

/-- Breusch–Pagan statistic `bp` (_math_tools.py 137-150, before the chi-square cdf).  `wpred` is the
least-squares line through `(x, w)`. -/
def breuschPaganStat (x residuals : Fin n → K) : K :=
  let sigma2 := (∑ i, residuals i ^ 2) / n
  let w : Fin n → K := fun i => residuals i ^ 2 - sigma2
  let wpred : Fin n → K := fun i => olsIntercept x w + olsSlope x w * x i
  n * (∑ i, wpred i ^ 2) / ∑ i, w i ^ 2

/-- Statistic of Harrison–McCabe for a break point (_math_tools.py 162-165): squares of the first `bp`
residuals over the squares of all. -/
def harrisonMcCabeStat (bp : ℕ) (residuals : Fin n → K) : K :=
  (∑ i ∈ Finset.univ.filter (fun i : Fin n => i.val < bp), residuals i ^ 2) / ∑ i, residuals i ^ 2

/-- `int(np.floor(breakRatio * nx))` (line 163). -/
def breakPoint [LinearOrder K] [FloorRing K] (breakRatio : K) (n : ℕ) : ℕ := ⌊breakRatio * n⌋.toNat

/-- `computeHarrisonMcCabeTest` (_math_tools.py 156-174); `sims i` is the `i`-th standardised simulated
sample (lines 170-173).  The value is `np.mean(stat <= hmc)`. -/
def harrisonMcCabeTest [LinearOrder K] [FloorRing K] (residuals : Fin n → K) (breakRatio : K)
    (sims : List (Fin n → K)) : K :=
  let bp := breakPoint breakRatio n
  let hmc := harrisonMcCabeStat bp residuals
  ((sims.map (harrisonMcCabeStat bp)).filter (fun s => s ≤ hmc)).length / sims.length

/-- Durbin–Watson statistic (_math_tools.py 188-189): `sum(diff(r)^2)/sum(r^2)`. -/
def durbinWatsonStat (r : Fin (n + 1) → K) : K :=
  (∑ i : Fin n, (r i.succ - r i.castSucc) ^ 2) / ∑ i, r i ^ 2

end Generic

section DW
variable {K : Type*} [Field K] {m : ℕ}

/-- Design matrix `X = [1, x]` (lines 192-194), for `nx = m + 2` observations and dimension 1. -/
def dwX (x : Fin (m + 2) → K) : Matrix (Fin (m + 2)) (Fin 2) K :=
  Matrix.of fun i j => if j = 0 then 1 else x i

/-- Matrix `B` (lines 195-199): first column zero, second column the second differences, with the two
boundary rows. -/
def dwB (x : Fin (m + 2) → K) : Matrix (Fin (m + 2)) (Fin 2) K :=
  Matrix.of fun i j =>
    if j = 0 then 0
    else if h0 : i.val = 0 then x 0 - x 1
    else if hl : i.val = m + 1 then x (Fin.last (m + 1)) - x ⟨m, by omega⟩
    else -x ⟨i.val - 1, by omega⟩ + 2 * x i - x ⟨i.val + 1, by omega⟩

/-- `XBQt = (XᵀX)⁻¹ (Bᵀ X)` (lines 201-202). -/
noncomputable def dwXBQt (x : Fin (m + 2) → K) : Matrix (Fin 2) (Fin 2) K :=
  ((dwX x).transpose * dwX x)⁻¹ * ((dwB x).transpose * dwX x)

/-- `P` (line 203). -/
noncomputable def dwP (x : Fin (m + 2) → K) : K :=
  2 * (((m + 2 : ℕ) : K) - 1) - (dwXBQt x).trace

/-- `Q` (lines 204-214). -/
noncomputable def dwQ (x : Fin (m + 2) → K) : K :=
  2 * (3 * ((m + 2 : ℕ) : K) - 4) - 2 * (((dwX x).transpose * dwX x)⁻¹ * ((dwB x).transpose * dwB x)).trace
    + (dwXBQt x * dwXBQt x).trace

/-- `dmean` (line 215), `dim = 1`. -/
noncomputable def dwMean (x : Fin (m + 2) → K) : K := dwP x / (((m + 2 : ℕ) : K) - (1 + 1))

/-- `dvar` (line 216). -/
noncomputable def dwVar (x : Fin (m + 2) → K) : K :=
  2 / ((((m + 2 : ℕ) : K) - (1 + 1)) * (((m + 2 : ℕ) : K) - (1 + 1) + 2)) * (dwQ x - dwP x * dwMean x)

end DW

/-- The `hypothesis` argument of `computeDurbinWatsonTest`. -/
inductive Hypothesis | equal | less | greater
  deriving DecidableEq

/-- p-value of the Durbin–Watson test from the statistic and the two moments (_math_tools.py 218-227).
Any other hypothesis string behaves as `Equal`. -/
noncomputable def dwPValue (dw dmean dvar : ℝ) (h : Hypothesis) : ℝ :=
  let p := 2 * PhiC (|dw - dmean| / Real.sqrt dvar)
  match h with
  | .equal => p
  | .less => 1 - p / 2
  | .greater => p / 2

/-- `computeDurbinWatsonTest(x, residuals, hypothesis)` (_math_tools.py 179-227). -/
noncomputable def computeDurbinWatsonTest {m : ℕ} (x r : Fin (m + 2) → ℝ) (h : Hypothesis) : ℝ :=
  dwPValue (durbinWatsonStat r) (dwMean x) (dwVar x) h

/-- `computeZeroMeanTest(residuals)` (_math_tools.py 125-132).  `pStudent ν t` is the Student cdf.  A zero
variance gives a numpy 0/0 or x/0; the model is used with non-zero variance. -/
noncomputable def computeZeroMeanTest {n : ℕ} (pStudent : ℕ → ℝ → ℝ) (r : Fin n → ℝ) : ℝ :=
  let stderr := Real.sqrt (svar r / n)
  let statistic := smean r / stderr
  2 * pStudent (n - 1) (-|statistic|)

end Verif.Model
