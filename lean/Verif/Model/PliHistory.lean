import Verif.Model.Pli

/-!
# History of the performance function read by the PLI

_pli.py 52-62 (the history of the function of the event is read, whatever filled it) and _pli_pod.py 80-96 (the wrapper creates a new
memoized function and clears its history before the simulation).
-/

namespace Verif.Model
open Verif.Py

/-- The history of a memoized function after a simulation whose points are `mc` (inputs with outputs): the points of `prior`
evaluations stay in it unless `clearHistory()` is called before (_pli_pod.py 83-85). -/
def historyAfter {X : Type} (clear : Bool) (prior mc : List (X × ℝ)) : List (X × ℝ) :=
  if clear then mc else prior ++ mc

open Classical in
/-- The estimate of `ProbabilitySimulationAlgorithm`: the fraction of the points of the simulation in the event
(`ot.Less`, `ot.Greater`, …). -/
noncomputable def monteCarloEstimate {X : Type} (inEvent : ℝ → Prop) (mc : List (X × ℝ)) : ℝ :=
  ((mc.filter fun p => decide (inEvent p.2)).length : ℝ) / mc.length

/-- `PLI.run` for one marginal and one delta after a simulation (lines 106-136): `getProbabilityEstimate()` and
`getOuterSampling() * getBlockSize()` come from the simulation, the failure sample from the history. -/
noncomputable def pliEntryAfter {d : ℕ} (op : CmpOp) (thr : ℝ) (inEvent : ℝ → Prop) (clear : Bool)
    (prior mc : List ((Fin d → ℝ) × ℝ)) (pdf : Fin d → ℝ → ℝ) (marginal : Fin d) (pert : ℝ → ℝ) : Res (ℝ × ℝ × F ℝ × Option ℝ) :=
  pliEntry op thr (historyAfter clear prior mc) mc.length (monteCarloEstimate inEvent mc) pdf marginal pert

end Verif.Model
