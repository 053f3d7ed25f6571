import Verif.Model.Pli

/-!
# The box of the optimiser of `PLIVarianceBase.optimizeLambda`
-/

namespace Verif.Model

/-- `ot.Interval([-1000.0] * 2, [1000.0] * 2)`, /repo/otpod/_pli.py lines 907-912: the points the optimiser may return. -/
def InBox (lam : ℝ × ℝ) : Prop := (-1000 ≤ lam.1 ∧ lam.1 ≤ 1000) ∧ (-1000 ≤ lam.2 ∧ lam.2 ≤ 1000)

/-- Contract of `ot.NLopt(optimPb, "LD_SLSQP")`, /repo/otpod/_pli.py lines 907-919: `lam` minimises `H` over the box. -/
def BoxMin (p : ℝ → ℝ) (a b : ℝ) (rhs lam : ℝ × ℝ) : Prop :=
  InBox lam ∧ ∀ mu, InBox mu → dualH p a b rhs lam ≤ dualH p a b rhs mu

end Verif.Model
