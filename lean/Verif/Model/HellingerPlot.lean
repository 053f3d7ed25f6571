import Verif.Model.Pli

/-!
# Abscissas of the Hellinger plot of `PLI.drawIndices`
-/

namespace Verif.Model
open Verif.Py

/-- `_computeHellinger(marginal, d)` and the sign, /repo/otpod/_pli.py lines 391-397, for `PLIMeanBase`: the original value is the
mean (`getOriginalDelta`, lines 698-707). -/
noncomputable def meanAbscissa (solve : ℝ → ℝ → ℝ → ℝ) (s : Set ℝ) (m : Marg) (δ : ℝ) : Res ℝ :=
  match meanPert solve m δ with
  | .error e => .error e
  | .ok q => .ok (hellingerAbscissa s m.pdf q δ m.mean)

/-- The same for `PLIVarianceBase`: the original value is the variance (`getOriginalDelta`, lines 794-803). -/
noncomputable def varAbscissa (optimize : (ℝ → ℝ) → ℝ → ℝ → ℝ × ℝ → ℝ × ℝ) (s : Set ℝ) (m : Marg) (δ : ℝ) : Res ℝ :=
  match varPert optimize m δ with
  | .error e => .error e
  | .ok q => .ok (hellingerAbscissa s m.pdf q δ m.var)

/-- The loop over the column of deltas, lines 391-397: `x_support`, an array of floats. -/
noncomputable def abscissas (point : ℝ → Res ℝ) : List ℝ → Res (List ℝ)
  | [] => .ok []
  | d :: ds =>
    match point d with
    | .error e => .error e
    | .ok x =>
      match abscissas point ds with
      | .error e => .error e
      | .ok xs => .ok (x :: xs)

end Verif.Model
