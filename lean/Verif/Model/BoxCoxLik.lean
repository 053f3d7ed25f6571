import Verif.Model.LinearRun
import Verif.Model.ResidualVar

/-!
# The likelihood behind the Box-Cox parameter, and the POD of a run with Box-Cox

`computeBoxCox` (/repo/otpod/_math_tools.py 87-109) calls `ot.BoxCoxFactory().build(valuesInit, [shift])`, which maximises the profile
log-likelihood of the transformed sample (without trend) over the exponent.  The optimiser itself is external: its contract is that it
returns a maximiser.
-/

namespace Verif.Model
open Verif.Py

/-- The log-likelihood maximised by `BoxCoxFactory` for the positive sample `y` (the shift is already added): variance of the
transformed sample with divisor `n`, and the Jacobian term (_math_tools.py 89-102). -/
noncomputable def bcLogLik {n : ℕ} (y : Fin n → ℝ) (lam : ℝ) : ℝ :=
  -((n : ℝ) / 2) * Real.log (svar (fun i => boxCoxFun lam (y i)) * (1 - 1 / (n : ℝ))) + (lam - 1) * ∑ i, Real.log (y i)

/-- A list of values seen as a sample. -/
def sampleOf (ys : List ℝ) : Fin ys.length → ℝ := fun i => ys.get i

/-- Contract of `computeBoxCox` (_math_tools.py 87-109): for positive shifted signals, not all equal, it returns a maximiser of the
log-likelihood of the shifted signals. -/
def BoxCoxOptimal (bc : List ℝ → List ℝ → ℝ → Res ℝ) : Prop :=
  ∀ (xs ys : List ℝ) (shift : ℝ), (∀ y ∈ ys, 0 < y + shift) → (∃ a ∈ ys, ∃ b ∈ ys, a ≠ b) →
    ∃ lam, bc xs ys shift = .ok lam ∧
      ∀ mu, bcLogLik (sampleOf (ys.map (· + shift))) mu ≤ bcLogLik (sampleOf (ys.map (· + shift))) lam

/-- Contract of the least squares of statsmodels (_univariate_linear_model_pod.py 582-595). -/
def OlsExact (ols : List (ℝ × ℝ) → ℝ × ℝ × ℝ) : Prop :=
  ∀ obs : List (ℝ × ℝ), ols obs =
    (olsIntercept (fun i : Fin obs.length => (obs.get i).1) (fun i => (obs.get i).2),
     olsSlope (fun i : Fin obs.length => (obs.get i).1) (fun i => (obs.get i).2),
     linearStderr (fun i : Fin obs.length => (obs.get i).1) (fun i => (obs.get i).2))

/-- The Gaussian POD drawn from a fitted linear model (`run` with `NormalFactory`, _univariate_linear_model_pod.py 151-192, 397-416):
the defects of the model, its line, its standard error and its transformed threshold. -/
noncomputable def runGaussPod (r : LinModelResult) : ℝ → ℝ :=
  podGauss (fun i : Fin r.obs.length => (r.obs.get i).1) r.fit.stderr r.detection fun a => r.fit.intercept + r.fit.slope * a

/-- The binomial POD of a fitted linear model (`run` without residual factory, _univariate_linear_model_pod.py 151-184, 361-369). -/
noncomputable def runBinomialPod (r : LinModelResult) : ℝ → ℝ :=
  podBinomial r.fit.residuals r.detection fun a => r.fit.intercept + r.fit.slope * a

end Verif.Model
