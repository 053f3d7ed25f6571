import Verif.Model.Stats
import Verif.Model.Analysis

/-!
# The dictionary of the hypothesis tests of `UnivariateLinearModelAnalysis`
-/

namespace Verif.Model
open Verif.Py

/-- What `_computeTests` takes from OpenTURNS: the p-values of the two normality tests, the p-value of the Kolmogorov test of a sample against a law
(given by its cdf), the cdf of the Student and chi-square(1) laws (a NaN or infinite argument included), the standardised samples drawn by the test of
Harrison and McCabe. -/
structure TestEnv (n : ℕ) where
  andersonDarling : (Fin n → ℝ) → F ℝ
  cramerVonMises : (Fin n → ℝ) → F ℝ
  kolmogorov : (Fin n → ℝ) → (ℝ → ℝ) → F ℝ
  pStudent : ℕ → F ℝ → F ℝ
  pChiSquare : F ℝ → F ℝ
  sims : List (Fin n → ℝ)

/-- `-np.abs(x)`. -/
noncomputable def negAbs : F ℝ → F ℝ
  | .fin x => .fin (-|x|)
  | .nan => .nan
  | _ => .ninf

/-- `computeZeroMeanTest` (_math_tools.py 125-132) with the divisions of numpy. -/
noncomputable def zeroMeanPValue {n : ℕ} (pStudent : ℕ → F ℝ → F ℝ) (r : Fin n → ℝ) : F ℝ :=
  F.mul (.fin 2) (pStudent (n - 1) (negAbs (F.div (.fin (smean r)) (.fin (Real.sqrt (svar r / n))))))

/-- `computeBreuschPaganTest` (_math_tools.py 137-151) with the divisions of numpy. -/
noncomputable def breuschPaganPValue {n : ℕ} (pChiSquare : F ℝ → F ℝ) (x r : Fin n → ℝ) : F ℝ :=
  let sigma2 := (∑ i, r i ^ 2) / n
  let w : Fin n → ℝ := fun i => r i ^ 2 - sigma2
  let wpred : Fin n → ℝ := fun i => olsIntercept x w + olsSlope x w * x i
  F.sub (.fin 1) (pChiSquare (F.div (.fin (n * ∑ i, wpred i ^ 2)) (.fin (∑ i, w i ^ 2))))

/-- The statistic of Harrison and McCabe of a sample, division of numpy (_math_tools.py 165, 173). -/
noncomputable def hmcRatio {n : ℕ} (bp : ℕ) (r : Fin n → ℝ) : F ℝ :=
  F.div (.fin (∑ i ∈ Finset.univ.filter (fun i : Fin n => i.val < bp), r i ^ 2)) (.fin (∑ i, r i ^ 2))

/-- `computeHarrisonMcCabeTest` with its default break ratio (_math_tools.py 156-175). -/
noncomputable def harrisonMcCabePValue {n : ℕ} (sims : List (Fin n → ℝ)) (r : Fin n → ℝ) : F ℝ :=
  let bp := breakPoint (1 / 2 : ℝ) n
  F.div (.fin ((sims.map (hmcRatio bp)).countP fun s => F.le s (hmcRatio bp r))) (.fin sims.length)

/-- `2 * ot.DistFunc.pNormal(x, True)` (_math_tools.py 221) for a numpy number: the complementary cdf of the standard normal law is 0 at infinity and
NaN for NaN. -/
noncomputable def twoSidedNormal : F ℝ → F ℝ
  | .fin t => .fin (2 * PhiC t)
  | .pinf => .fin 0
  | .ninf => .fin 2
  | .nan => .nan

/-- `computeDurbinWatsonTest` with its default hypothesis (_math_tools.py 179-227), with the divisions of numpy in the statistic and in its reduction.
The number of observations is at least 3 and the defects are not all equal (the Gram matrix is regular). -/
noncomputable def durbinWatsonPValue {m : ℕ} (x r : Fin (m + 2) → ℝ) : F ℝ :=
  match F.div (.fin (∑ i : Fin (m + 1), (r i.succ - r i.castSucc) ^ 2)) (.fin (∑ i, r i ^ 2)) with
  | .fin dw => twoSidedNormal (F.div (.fin |dw - dwMean x|) (.fin (Real.sqrt (dwVar x))))
  | _ => .nan

/-- `_computeTests(defects, signals, residuals, resDist)` (_univariate_linear_model_analysis.py 311-341), the law of the residuals being given by its
cdf.  With two observations the Durbin-Watson test divides the float `P` by `nx - 2 = 0` (_math_tools.py 215). -/
noncomputable def computeTests {m : ℕ} (env : TestEnv (m + 2)) (defects signals residuals : Fin (m + 2) → ℝ) (resDist : ℝ → ℝ) : Res TestResults :=
  match computeR2 signals residuals with
  | .error e => .error e
  | .ok r2 =>
    if m = 0 then .error ⟨.zeroDivision, "float division by zero"⟩
    else .ok
      { R2 := .fin r2
        andersonDarling := env.andersonDarling residuals
        cramerVonMises := env.cramerVonMises residuals
        zeroMean := zeroMeanPValue env.pStudent residuals
        kolmogorov := env.kolmogorov residuals resDist
        breuschPagan := breuschPaganPValue env.pChiSquare defects residuals
        harrisonMcCabe := harrisonMcCabePValue env.sims residuals
        durbinWatson := durbinWatsonPValue defects residuals }

end Verif.Model
