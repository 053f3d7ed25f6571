import Verif.Model.LinearPOD

/-!
# The number of detections in the binomial confidence curve, in double precision

/repo/otpod/_univariate_linear_model_pod.py 371-391.  `m.trunc(sizeResiduals * computeComplementaryCDF(...))` recovers a count from a
quotient.  `fl` rounds a real number to a double; the comparisons with the threshold, the powers and `qBeta` stay exact.
-/

namespace Verif.Model

/-- `m.trunc(sizeResiduals * ccdf)`, lines 378-380: the product is rounded, then truncated. -/
noncomputable def countFl (fl : ℝ → ℝ) (n : ℕ) (ccdf : ℝ) : ℕ := (pyInt (fl (n * ccdf))).toNat

/-- `computeComplementaryCDF` of `ot.UserDefined` (external): the quotient `k / n` correctly rounded. -/
noncomputable def ccdfQuotient (fl : ℝ → ℝ) (n k : ℕ) : ℝ := fl ((k : ℝ) / n)

/-- `computeComplementaryCDF` as one minus the CDF, the CDF being a correctly rounded quotient. -/
noncomputable def ccdfComplement (fl : ℝ → ℝ) (n k : ℕ) : ℝ := fl (1 - fl (((n - k : ℕ) : ℝ) / n))

/-- The CDF as a running sum of the weights `1 / n`. -/
noncomputable def cumFl (fl : ℝ → ℝ) (n : ℕ) : ℕ → ℝ
  | 0 => 0
  | m + 1 => fl (cumFl fl n m + fl (1 / n))

/-- `computeComplementaryCDF` as one minus the running sum of the weights. -/
noncomputable def ccdfCumulated (fl : ℝ → ℝ) (n k : ℕ) : ℝ := fl (1 - cumFl fl n (n - k))

/-- `_PODbinomialModelCl`, lines 371-391, with the count in double precision.  `ccdf n k`: what `computeComplementaryCDF` returns when `k` of
the `n` residuals are above the threshold. -/
noncomputable def podBinomialClFl (fl : ℝ → ℝ) (ccdf : ℕ → ℕ → ℝ) (qBeta : ℕ → ℕ → ℝ → ℝ) (residuals : List ℝ) (detection : ℝ)
    (linearModel : ℝ → ℝ) (confLevel x : ℝ) : ℝ :=
  let n := residuals.length
  let above := residuals.countP fun r => decide (detection - linearModel x < r)
  let nbDepDef := countFl fl n (ccdf n above)
  if nbDepDef = n then confLevel ^ ((1 : ℝ) / n)
  else 1 - qBeta (n - nbDepDef) (nbDepDef + 1) confLevel

end Verif.Model
